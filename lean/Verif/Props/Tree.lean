import Verif.Lemmas.Tree
import Verif.Props.BpVector
import Verif.Props.RSBitVector

/-!
# C64: a `bp_vector` navigates ordered trees

`Forest`, its parenthesis sequence `bp` and `Node` (path, preorder number, position, children) are
defined in `Verif/Spec/Tree.lean` without reference to the model.
-/
namespace Succinct
open Spec Spec.Forest
open BpVector (exc Good)
open RSBitVector (bind_pure_some)

namespace TreeBp

theorem exc_node {A T : List Bool} (p : Nat) : exc (A ++ (true :: T)) (A.length + 1 + p) = exc (A ++ (true :: T)) A.length + 1 + exc T p := by
  have h := exc_append_right A (true :: T) (1 + p)
  have h0 := exc_append_left A (true :: T) A.length (Nat.le_refl _)
  have h1 := exc_append_right [true] T p
  have h2 : exc [true] 1 = 1 := by simp [exc, excF, cnt_succ, bitFn]
  simp only [List.length_singleton, List.singleton_append, h2] at h1
  rw [h0, Nat.add_assoc, h, h1]; omega

/-- inside a balanced block after an opening parenthesis the excess stays above the one before it -/
theorem exc_inside {A S U : List Bool} (hS : Bal S) {p : Nat} (hp : p ≤ S.length) :
    exc (A ++ (true :: (S ++ U))) A.length + 1 ≤ exc (A ++ (true :: (S ++ U))) (A.length + 1 + p) := by
  rw [exc_node, exc_append_left S U p hp]
  have := (Bal.dyck hS).nonneg p hp
  omega

theorem dyck_append {a b : List Bool} (ha : Dyck a) (hb : Dyck b) : Dyck (a ++ b) := by
  constructor
  · intro p hp
    rw [List.length_append] at hp
    rcases Nat.le_total p a.length with h | h
    · rw [exc_append_left _ _ _ h]; exact ha.nonneg p h
    · have := exc_append_right a b (p - a.length)
      rw [show a.length + (p - a.length) = p by omega, ha.zero] at this
      have := hb.nonneg (p - a.length) (by omega)
      omega
  · rw [List.length_append, exc_append_right, ha.zero, hb.zero]; rfl

theorem exc_end {A S U : List Bool} (hS : Bal S) :
    exc (A ++ (true :: (S ++ U))) (A.length + 1 + S.length) = exc (A ++ (true :: (S ++ U))) A.length + 1 := by
  rw [exc_node, exc_append_left S U _ (Nat.le_refl _), (Bal.dyck hS).zero]
  omega

theorem matching_shape (A S B : List Bool) (hS : Bal S) : Matching (A ++ (true :: S ++ false :: B)) A.length (A.length + S.length + 1) := by
  refine ⟨by omega, by simp, ?_, ?_⟩
  · rw [List.getElem?_append_right (by omega), show A.length + S.length + 1 - A.length = S.length + 1 by omega, List.cons_append,
      List.getElem?_cons_succ, List.getElem?_append_right (Nat.le_refl _)]
    simp
  · unfold between
    rw [List.drop_take, List.drop_append, List.drop_eq_nil_of_le (by omega), show A.length + 1 - A.length = 1 by omega]
    rw [List.cons_append, List.drop_one, List.tail_cons, List.nil_append, List.take_append_of_le_length (by omega),
      List.take_of_length_le (by omega)]
    exact hS

theorem node_matching {F p n o s} (h : Node F p n o s) : Matching F.bp o (o + 2 * s.size + 1) := by
  obtain ⟨A, B, e, h1, _⟩ := h.shape
  have := matching_shape A s.bp B (bp_bal s)
  rwa [← e, bp_length, h1] at this

theorem node_excess {F p n o s} (h : Node F p n o s) : Spec.excess F.bp o = p.length - 1 := by
  obtain ⟨A, B, e, h1, h2, h3⟩ := h.shape
  unfold Spec.excess
  rw [e, ← h1, List.take_left']
  · omega
  · rfl

theorem node_rank {F p n o s} (h : Node F p n o s) : IsSelect1 F.bp n o := by
  obtain ⟨A, B, e, h1, h2, h3⟩ := h.shape
  refine ⟨(node_matching h).2.1, ?_⟩
  unfold rank1
  rw [e, ← h1, List.take_left' rfl, h2]

end TreeBp
open TreeBp

/-- **C64**, positions: for every node of every forest below `2^30` nodes, `find_close` and `find_open` span
exactly its subtree, `excess` is its depth, and `rank`/`select` convert between preorder number and position. -/
theorem C64_node (ov : Word → Nat → Word) (F : Forest) (hints hints0 : Bool) (hF : F.size < 2^30) :
    ∃ v, BpVector.build (BitVector.ofRange F.bp) hints hints0 = some v ∧
      ∀ p n o s, Node F p n o s →
        v.findClose ov o = some (o + 2 * s.size + 1) ∧ v.findOpen ov (o + 2 * s.size + 1) = some o ∧
        v.excess o = some ((p.length : Int) - 1) ∧ v.rs.rank o = some n ∧ v.rs.select n = some o := by
  have hl := bp_length F
  obtain ⟨v, e, h1, _⟩ := C50_depth_partial ov F.bp hints hints0 (bp_bal F) (by omega)
  refine ⟨v, e, fun p n o s h => ?_⟩
  have hm := node_matching h
  have hr := node_rank h
  have ho : o < F.bp.length := (List.getElem?_eq_some_iff.1 hr.1).1
  obtain ⟨c1, c2⟩ := h1 _ _ hm
  have c3 := C34_excess F.bp hints hints0 (by omega) v e o (by omega)
  obtain ⟨rs, e1, _, _, c4, _⟩ := C14_rank F.bp hints hints0
  obtain ⟨rs', e2, c5, _⟩ := C15_select F.bp hints hints0
  rw [BpVector.build_rs e] at e1 e2
  cases e1; cases e2
  refine ⟨c1, c2, by rw [c3, node_excess h], ?_, ?_⟩
  · rw [(c4 o (by omega)).1, hr.2]
  · have hn : n < F.bp.count true := by
      obtain ⟨A, B, eA, g1, g2, g3⟩ := h.shape
      rw [eA]; simp [List.count_append, g2]
    obtain ⟨q, q1, q2⟩ := c5 n hn
    rw [q1, isSelect1_unique q2 hr]

/-- **C64**, parents: `enclose` of a node that is not a root is its parent. -/
theorem C64_parent (ov : Word → Nat → Word) (F : Forest) (hints hints0 : Bool) (hF : F.size < 2^30) :
    ∃ v, BpVector.build (BitVector.ofRange F.bp) hints hints0 = some v ∧
      ∀ p i n o s n' o' s', Node F p n o s → Node F (p ++ [i]) n' o' s' → v.enclose ov o' = some o := by
  have hl := bp_length F
  have hg := (Bal.dyck (bp_bal F)).good (by omega)
  obtain ⟨v, e, _, hi⟩ := BpVector.build_inv F.bp hints hints0 hg
  refine ⟨v, e, fun p i n o s n' o' s' h h' => ?_⟩
  have hb := (node_matching h').2.1
  have ho : o' < F.bp.length := (List.getElem?_eq_some_iff.1 hb).1
  obtain ⟨n1, o1, s1, n2, o2, g1, g2, -, rfl⟩ := h'.split h.ne_nil (by simp)
  obtain ⟨-, rfl, rfl⟩ := h.det g1
  obtain ⟨A, B, eA, hA, -⟩ := h.shape
  obtain ⟨M, B2, eM, hM, bM⟩ := g2.root_shape
  have eF : F.bp = A ++ (true :: (M ++ ((true :: s'.bp ++ false :: B2) ++ false :: B))) := by rw [eA, eM]; simp
  subst hA hM
  have x1 := exc_end (A := A) (U := (true :: s'.bp ++ false :: B2) ++ false :: B) bM
  rw [← eF] at x1
  refine BpVector.enclose_spec ov hi hg _ _ (by omega) ho ((bitFn_eq_true _ _).2 hb) (by omega) fun q q1 q2 => ?_
  have x2 := exc_inside (A := A) (U := (true :: s'.bp ++ false :: B2) ++ false :: B) bM (p := q - A.length - 1) (by omega)
  rw [← eF, show A.length + 1 + (q - A.length - 1) = q by omega] at x2
  omega

theorem TreeBp.children (F : Forest) : ∀ p n o s, Node F p n o s →
    (F.bp[o + 1]? = some true ↔ s ≠ .nil) ∧ (s ≠ .nil → ∃ t, Node F (p ++ [0]) (n + 1) (o + 1) t) := by
  intro p n o s h
  obtain ⟨A, B, eA, hA, -⟩ := h.shape
  have hb : F.bp[o + 1]? = (s.bp ++ false :: B)[0]? := by
    rw [eA, List.getElem?_append_right (by omega), hA, Nat.add_sub_cancel_left, List.cons_append, List.getElem?_cons_succ]
  rw [hb]
  cases s with
  | nil => exact ⟨by simp [bp], fun h => absurd rfl h⟩
  | cons k r => exact ⟨by simp [bp], fun _ => ⟨k, h.concat .here⟩⟩

theorem TreeBp.siblings (F : Forest) (p : List Nat) (i n o : Nat) (s : Forest) (h : Node F (p ++ [i]) n o s) :
    (F.bp[o + 2 * s.size + 2]? = some true ↔ ∃ n' o' s', Node F (p ++ [i + 1]) n' o' s') ∧
    (∀ n' o' s', Node F (p ++ [i + 1]) n' o' s' → o' = o + 2 * s.size + 2 ∧ n' = n + s.size + 1) := by
  have key : ∀ (G : Forest) n o s, Node G [i] n o s → ∀ n' o' s', Node G [i + 1] n' o' s' → o' = o + 2 * s.size + 2 ∧ n' = n + s.size + 1 ∧
      G.bp[o + 2 * s.size + 2]? = some true := by
    intro G n o s h n' o' s' h'
    have hr := root_succ h h'
    exact ⟨hr.1, hr.2, by rw [← hr.1]; exact (node_matching h').2.1⟩
  by_cases hp : p = []
  · subst hp
    refine ⟨⟨fun hb => ?_, fun ⟨n', o', s', h'⟩ => (key F _ _ _ h _ _ _ h').2.2⟩, fun n' o' s' h' => ⟨(key F _ _ _ h _ _ _ h').1, (key F _ _ _ h _ _ _ h').2.1⟩⟩
    obtain ⟨t, ht⟩ := h.next_sibling hb
    exact ⟨_, _, _, ht⟩
  · obtain ⟨n1, o1, s1, n2, o2, g1, g2, rfl, rfl⟩ := h.split hp (by simp)
    obtain ⟨A, B, eA, hA, -⟩ := g1.shape
    have hlen : o2 + 2 * s.size + 2 ≤ s1.bp.length := by
      have h1 := (List.getElem?_eq_some_iff.1 (node_matching g2).2.2.1).1; omega
    have hb : F.bp[o1 + 1 + o2 + 2 * s.size + 2]? = (s1.bp ++ false :: B)[o2 + 2 * s.size + 2]? := by
      rw [eA, List.getElem?_append_right (by omega), hA, show o1 + 1 + o2 + 2 * s.size + 2 - o1 = o2 + 2 * s.size + 2 + 1 by omega,
        List.cons_append, List.getElem?_cons_succ]
    have back : ∀ n' o' s', Node F (p ++ [i + 1]) n' o' s' → o' = o1 + 1 + o2 + 2 * s.size + 2 ∧ n' = n1 + 1 + n2 + s.size + 1 := by
      intro n' o' s' h'
      obtain ⟨m1, u1, t1, m2, u2, f1, f2, rfl, rfl⟩ := h'.split hp (by simp)
      obtain ⟨rfl, rfl, rfl⟩ := g1.det f1
      have := key _ _ _ _ g2 _ _ _ f2
      omega
    refine ⟨⟨fun hh => ?_, fun ⟨n', o', s', h'⟩ => by rw [← (back _ _ _ h').1]; exact (node_matching h').2.1⟩, back⟩
    rw [hb] at hh
    rcases Nat.lt_or_ge (o2 + 2 * s.size + 2) s1.bp.length with hc | hc
    · rw [List.getElem?_append_left hc] at hh
      obtain ⟨t, ht⟩ := g2.next_sibling hh
      exact ⟨_, _, _, g1.concat ht⟩
    · rw [show o2 + 2 * s.size + 2 = s1.bp.length by omega, List.getElem?_append_right (Nat.le_refl _)] at hh
      simp at hh

/-- `operator[]` on the sequence of a forest, in and out of range -/
theorem TreeBp.access_bp (F : Forest) (i : Nat) : (BitVector.ofRange F.bp).access i = F.bp[i]? := by
  rcases Nat.lt_or_ge i F.bp.length with h | h
  · rw [BitVector.access_eq (BitVector.ofRange_rep _) i h, List.getElem?_eq_getElem h]
    simp [bitFn, h]
  · rw [BitVector.access_none (BitVector.ofRange_rep _) i h, List.getElem?_eq_none h]

/-- **C64**, children: the bit after a node's own parenthesis tells whether it has a child, and the first child is there. -/
theorem C64_children (F : Forest) (hints hints0 : Bool) (hF : F.size < 2^30) :
    ∃ v, BpVector.build (BitVector.ofRange F.bp) hints hints0 = some v ∧
      ∀ p n o s, Node F p n o s →
        (v.rs.bv.access (o + 1) = some true ↔ s ≠ .nil) ∧ (s ≠ .nil → ∃ t, Node F (p ++ [0]) (n + 1) (o + 1) t) := by
  have hl := bp_length F
  obtain ⟨v, e, hr, _⟩ := BpVector.build_inv F.bp hints hints0 ((Bal.dyck (bp_bal F)).good (by omega))
  refine ⟨v, e, fun p n o s h => ?_⟩
  rw [hr, access_bp]
  exact children F p n o s h

/-- **C64**, siblings: the bit after a node's closing parenthesis, which `find_close` locates, tells whether it has a next
sibling, and that sibling is there. -/
theorem C64_siblings (ov : Word → Nat → Word) (F : Forest) (hints hints0 : Bool) (hF : F.size < 2^30) :
    ∃ v, BpVector.build (BitVector.ofRange F.bp) hints hints0 = some v ∧
      ∀ p i n o s, Node F (p ++ [i]) n o s → ∃ c, v.findClose ov o = some c ∧
        (v.rs.bv.access (c + 1) = some true ↔ ∃ n' o' s', Node F (p ++ [i + 1]) n' o' s') ∧
        (∀ n' o' s', Node F (p ++ [i + 1]) n' o' s' → o' = c + 1 ∧ n' = n + s.size + 1) := by
  have hl := bp_length F
  obtain ⟨v, e, hr, _⟩ := BpVector.build_inv F.bp hints hints0 ((Bal.dyck (bp_bal F)).good (by omega))
  obtain ⟨v', e', hn⟩ := C64_node ov F hints hints0 hF
  rw [e] at e'; cases e'
  refine ⟨v, e, fun p i n o s h => ⟨_, (hn _ _ _ _ h).1, ?_⟩⟩
  rw [hr, access_bp]
  exact siblings F p i n o s h

/-- **C64**, lowest common ancestors: for two nodes below different children of `q`, `enclose` of the position
returned by `excess_rmq` is `q`, and the excess it returns is the depth below `q`. -/
theorem C64_lca (ov : Word → Nat → Word) (F : Forest) (hints hints0 : Bool) (hF : F.size < 2^30) :
    ∃ v, BpVector.build (BitVector.ofRange F.bp) hints hints0 = some v ∧
      ∀ q nq oq s i r j r' n o t n' o' t', Node F q nq oq s → i < j → Node F (q ++ i :: r) n o t → Node F (q ++ j :: r') n' o' t' →
        ∃ p, v.excessRmq o o' = some (p, (q.length : Int)) ∧ v.enclose ov p = some oq := by
  have hl := bp_length F
  have hg := (Bal.dyck (bp_bal F)).good (by omega)
  obtain ⟨v, e, _, hi⟩ := BpVector.build_inv F.bp hints hints0 hg
  obtain ⟨v', e', hrmq⟩ := C35_excess_rmq F.bp hints hints0 (bp_bal F) (by omega)
  rw [e] at e'; cases e'
  refine ⟨v, e, fun q nq oq s i r j r' n o t n' o' t' hq hij h h' => ?_⟩
  obtain ⟨n1, o1, s1, n2, o2, g1, g2, -, rfl⟩ := h.split hq.ne_nil (by simp)
  obtain ⟨m1, u1, s1', m2, u2, f1, f2, -, rfl⟩ := h'.split hq.ne_nil (by simp)
  obtain ⟨rfl, rfl, rfl⟩ := hq.det g1
  obtain ⟨rfl, rfl, rfl⟩ := hq.det f1
  obtain ⟨_, a, x, gx, ax, ax'⟩ := g2.root_of
  obtain ⟨_, b, y, fy, bx, bx'⟩ := f2.root_of
  have hab := gx.root_lt fy hij
  obtain ⟨A, B, eA, hA, hn, hd⟩ := hq.shape
  have eF : F.bp = A ++ (true :: (s.bp ++ false :: B)) := by rw [eA]; simp
  subst hA
  have hu : u2 < s.bp.length := (List.getElem?_eq_some_iff.1 (node_matching f2).2.1).1
  have hFl : F.bp.length = A.length + s.bp.length + B.length + 2 := by rw [eF]; simp; omega
  have hexq := node_excess hq
  rw [spec_excess_eq _ _ (by omega)] at hexq
  have hin : ∀ z, A.length + 1 ≤ z → z ≤ A.length + 1 + s.bp.length → exc F.bp A.length + 1 ≤ exc F.bp z := by
    intro z z1 z2
    have := exc_inside (A := A) (U := false :: B) (bp_bal s) (p := z - A.length - 1) (by omega)
    rwa [← eF, show A.length + 1 + (z - A.length - 1) = z by omega] at this
  -- the end of the subtree of the child `i`
  have hend : exc F.bp (A.length + 1 + (a + 2 * x.size + 2)) = exc F.bp A.length + 1 := by
    obtain ⟨M, B2, eM, hM, bM⟩ := gx.root_shape
    have hbal : Bal (M ++ (true :: x.bp ++ [false])) := by
      refine (bal_iff _).2 (dyck_append (Bal.dyck bM) ?_)
      exact Bal.dyck (Bal.node (bp_bal x) .nil)
    have eF2 : F.bp = A ++ (true :: ((M ++ (true :: x.bp ++ [false])) ++ (B2 ++ false :: B))) := by rw [eF, eM]; simp
    have := exc_end (A := A) (U := B2 ++ false :: B) hbal
    rw [← eF2] at this
    rw [← this]; congr 1; simp [hM, bp_length]; omega
  obtain ⟨p, p1, p2, p3, p4, p5⟩ := hrmq (A.length + 1 + o2) (A.length + 1 + u2) (by omega) (by omega)
  have hex : ∀ z, z ≤ F.bp.length → Spec.excess F.bp z = exc F.bp z := fun z hz => spec_excess_eq _ z hz
  have hp : exc F.bp p = exc F.bp A.length + 1 := by
    have h1 := p4 (A.length + 1 + (a + 2 * x.size + 2)) (by omega) (by omega)
    rw [hex _ (by omega), hex _ (by omega), hend] at h1
    have := hin p (by omega) (by omega)
    omega
  have hbit : bitFn F.bp p = true := by
    have h1 := hin (p+1) (by omega) (by omega)
    have h2 : exc F.bp (p+1) = exc F.bp p + (if bitFn F.bp p then 1 else -1) := excF_succ _ _
    cases hbp : bitFn F.bp p with
    | true => rfl
    | false => rw [hbp] at h2; simp at h2; omega
  have hne := List.length_pos_iff.2 hq.ne_nil
  refine ⟨p, ?_, BpVector.enclose_spec ov hi hg p A.length (by omega) (by omega) hbit (by omega) fun z z1 z2 => ?_⟩
  · rw [p1, hex p (by omega), hp, hexq]
    congr 2; omega
  · have := hin z (by omega) (by omega); omega

/-- every opening parenthesis is a node, so the theorems above cover all of them -/
theorem C64_all_nodes (F : Forest) (i : Nat) (h : F.bp[i]? = some true) : ∃ p n s, Node F p n i s := Node.exists_of_open F i h

/-- a root with three children, the second of which has two -/
def treeExample : Forest := .cons (.cons .nil (.cons (.cons .nil (.cons .nil .nil)) (.cons .nil .nil))) .nil

example : treeExample.bp = [true, true, false, true, true, false, true, false, false, true, false, false] := by decide
/-- its node `[0, 1, 1]`: preorder number 4, position 6; its parent `[0, 1]`, at 3, and the later cousin `[0, 2]`, at 9 -/
example : Node treeExample [0, 1, 1] 4 6 .nil := .down (.next (.down (.next .here)))
example : Node treeExample [0, 1] 2 3 (.cons .nil (.cons .nil .nil)) := .down (.next .here)
example : Node treeExample [0, 2] 5 9 .nil := .down (.next (.next .here))
example : ((BpVector.build (BitVector.ofRange treeExample.bp) true true).bind fun v =>
    (v.excessRmq 6 9).bind fun p => v.enclose (fun _ _ => 0) p.1) = some 0 := by decide +kernel
example : ((BpVector.build (BitVector.ofRange treeExample.bp) true true).bind fun v => v.enclose (fun _ _ => 0) 6) = some 3 := by decide +kernel

end Succinct
