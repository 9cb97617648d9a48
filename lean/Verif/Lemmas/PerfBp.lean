import Verif.Model.PerfBp
import Verif.Spec.BinTree
import Verif.Lemmas.PerfFano
import Verif.Lemmas.TestGen
import Verif.Props.BpVector
import Verif.Props.BitVector
import Verif.Lemmas.Release

/-! The visits of `perftest_bp_vector.cpp`. -/
namespace Succinct
namespace Perf
open RSBitVector (bind_pure_some)
open Spec Release

theorem code_bal : ∀ t : BinTree, ∃ a, t.code = a ++ [false] ∧ Bal a
  | .leaf => ⟨[], rfl, .nil⟩
  | .node l r => by
    obtain ⟨a, h1, h2⟩ := code_bal l
    obtain ⟨b, h3, h4⟩ := code_bal r
    exact ⟨true :: a ++ false :: b, by simp [BinTree.code, h1, h3], .node h2 h4⟩

theorem code_odd : ∀ t : BinTree, t.code.length % 2 = 1
  | .leaf => rfl
  | .node l r => by
    have h1 := code_odd l
    have h2 := code_odd r
    simp only [BinTree.code, List.length_cons, List.length_append]
    omega

theorem root_bal (t : BinTree) : Bal (true :: t.code) := by
  obtain ⟨a, h1, h2⟩ := code_bal t
  rw [h1]
  exact .node h2 .nil

theorem treeHelper_tree (rand : Nat → Nat) : ∀ (fuel size k : Nat), size % 2 = 1 → size ≤ fuel →
    ∃ t k', Test.treeHelper rand fuel size k = some (BinTree.code t, k') ∧ t.code.length = size
  | 0, size, k, h1, h2 => by omega
  | fuel+1, size, k, h1, h2 => by
    unfold Test.treeHelper
    rw [assertP_eq _ h1, bind_pure_some]
    by_cases hs : size = 1
    · rw [if_pos hs]
      exact ⟨.leaf, k, rfl, hs.symm⟩
    · rw [if_neg hs]
      dsimp only
      have hm : rand k % (size - 1) < size - 1 := Nat.mod_lt _ (by omega)
      generalize hL : 2 * (rand k % (size - 1) / 2) + 1 = left
      have hl : left ≤ size - 2 ∧ left % 2 = 1 := by omega
      rw [assertP_eq _ (by omega), bind_pure_some, subU_eq _ _ (by omega), bind_pure_some, assertP_eq _ (by omega), bind_pure_some,
        assertP_eq _ (by omega), bind_pure_some]
      obtain ⟨t1, k1, e1, l1⟩ := treeHelper_tree rand fuel left (k+1) hl.2 (by omega)
      obtain ⟨t2, k2, e2, l2⟩ := treeHelper_tree rand fuel (size - 1 - left) k1 (by omega) (by omega)
      rw [e1, bind_pure_some]
      dsimp only
      rw [e2, bind_pure_some]
      refine ⟨.node t1 t2, k2, rfl, ?_⟩
      simp only [BinTree.code, List.length_cons, List.length_append]
      omega

theorem binaryTree_tree (rand : Nat → Nat) (size : Nat) (h : size % 2 = 0) (h2 : 2 ≤ size) :
    ∃ t, Test.binaryTree rand size = some (true :: BinTree.code t) ∧ t.code.length + 1 = size := by
  unfold Test.binaryTree
  rw [assertP_eq _ ⟨h, h2⟩, bind_pure_some]
  obtain ⟨t, k, e, l⟩ := treeHelper_tree rand size (size - 1) 0 (by omega) (by omega)
  rw [e]
  exact ⟨t, rfl, by omega⟩

theorem treeHelper_every : ∀ (t : BinTree) (fuel : Nat), t.code.length ≤ fuel →
    ∃ ds, ∀ rand k, Draws rand k ds → Test.treeHelper rand fuel t.code.length k = some (t.code, k + ds.length)
  | _, 0, h => by have := code_odd ‹_›; omega
  | .leaf, fuel+1, _ => ⟨[], fun _ _ _ => rfl⟩
  | .node l r, fuel+1, h => by
    have ol := code_odd l
    have or := code_odd r
    have hlen : (BinTree.node l r).code.length = 1 + l.code.length + r.code.length := by
      simp only [BinTree.code, List.length_cons, List.length_append]; omega
    obtain ⟨d1, h1⟩ := treeHelper_every l fuel (by omega)
    obtain ⟨d2, h2⟩ := treeHelper_every r fuel (by omega)
    refine ⟨(l.code.length - 1) :: (d1 ++ d2), fun rand k hd => ?_⟩
    obtain ⟨a1, a2⟩ := Draws.append (a := [l.code.length - 1]) hd
    obtain ⟨a3, a4⟩ := a2.append
    have hr : rand k = l.code.length - 1 := a1 0 _ rfl
    unfold Test.treeHelper
    rw [hlen, assertP_eq _ (by omega), bind_pure_some, if_neg (by omega)]
    dsimp only
    have hL : 2 * (rand k % (1 + l.code.length + r.code.length - 1) / 2) + 1 = l.code.length := by
      rw [hr, Nat.mod_eq_of_lt (by omega)]; omega
    rw [hL, assertP_eq _ (by omega), bind_pure_some, subU_eq _ _ (by omega), bind_pure_some, assertP_eq _ (by omega), bind_pure_some,
      assertP_eq _ (by omega), bind_pure_some, h1 rand (k+1) a3, bind_pure_some]
    dsimp only
    rw [show 1 + l.code.length + r.code.length - 1 - l.code.length = r.code.length by omega, h2 rand (k + 1 + d1.length) a4, bind_pure_some]
    simp only [List.length_cons, List.length_append]
    rw [show k + 1 + d1.length + d2.length = k + (d1.length + d2.length + 1) by omega]
    rfl

theorem fold_push : ∀ (l m : List Bool) (s : Builder), Inv s m → ∃ s', l.foldlM Builder.pushBack s = some s' ∧ Inv s' (m ++ l)
  | [], m, s, h => ⟨s, rfl, by rw [List.append_nil]; exact h⟩
  | x :: l, m, s, h => by
    obtain ⟨s1, e1, h1⟩ := Builder.pushBack_inv s m h x
    obtain ⟨s2, e2, h2⟩ := fold_push l (m ++ [x]) s1 h1
    refine ⟨s2, ?_, by rw [List.append_assoc] at h2; exact h2⟩
    rw [List.foldlM_cons, e1]; exact e2

theorem buildTree_eq (rand : Nat → Nat) (size : Nat) (l : List Bool) (h : Test.binaryTree rand size = some l) :
    buildTree rand size = BpVector.build (BitVector.ofRange l) true false := by
  obtain ⟨s0, e0, h0⟩ := Builder.new_inv 0 false
  obtain ⟨s1, e1, h1⟩ := fold_push l _ s0 h0
  rw [List.replicate_zero, List.nil_append] at h1
  obtain ⟨v, ev, hv⟩ := BitVector.ofBuilder_rep s1 l h1
  unfold buildTree
  rw [e0, bind_pure_some, h, bind_pure_some, e1, bind_pure_some, ev, bind_pure_some, BitVector.eq_ofRange hv]

/-- what the visit needs of `bp` -/
structure Answers (ov : Word → Nat → Word) (bp : BpVector) (l : List Bool) : Prop where
  access : ∀ i x, l[i]? = some x → bp.rs.bv.access i = some x
  close : ∀ i j, Matching l i j → bp.findClose ov i = some j

theorem build_answers (ov : Word → Nat → Word) (l : List Bool) (hb : Bal l) (hl : l.length < 2^31) :
    ∃ bp, BpVector.build (BitVector.ofRange l) true false = some bp ∧ bp.rs.bv = BitVector.ofRange l ∧ Answers ov bp l := by
  obtain ⟨t, e, g, _⟩ := BpVector.build_inv l true false ((Bal.dyck hb).good hl)
  obtain ⟨t1, e1, h1⟩ := C31_find_close ov l true false hb hl
  rw [e] at e1
  cases Option.some.inj e1
  refine ⟨t, e, g, fun i x hx => ?_, fun i j h => ?_⟩
  · have hi : i < l.length := (List.getElem?_eq_some_iff.1 hx).1
    rw [g, BitVector.access_eq (BitVector.ofRange_rep l) i hi, ← bitFn_getElem? l i hi, hx]
  · obtain ⟨j', a, b⟩ := h1 i h.2.1
    rw [a, matching_unique_close h b]

theorem matching_mid (pre a suf : List Bool) (ha : Bal a) : Matching (pre ++ (true :: a ++ false :: suf)) pre.length (pre.length + 1 + a.length) := by
  refine ⟨by omega, ?_, ?_, ?_⟩
  · rw [List.getElem?_append_right (Nat.le_refl _), Nat.sub_self]; rfl
  · rw [List.getElem?_append_right (by omega), show pre.length + 1 + a.length - pre.length = (true :: a).length by simp; omega,
      List.getElem?_append_right (Nat.le_refl _), Nat.sub_self]; rfl
  · have : between (pre ++ (true :: a ++ false :: suf)) pre.length (pre.length + 1 + a.length) = a := by
      unfold between
      rw [show pre ++ (true :: a ++ false :: suf) = (pre ++ true :: a) ++ false :: suf by simp,
        show pre.length + 1 + a.length = (pre ++ true :: a).length by simp; omega, List.take_left,
        show pre ++ true :: a = (pre ++ [true]) ++ a by simp, show pre.length + 1 = (pre ++ [true]).length by simp, List.drop_left]
    rw [this]; exact ha

/-- the inner loop walks down the subtree at its start -/
theorem inner_ok {ov : Word → Nat → Word} {bp : BpVector} {l : List Bool} (h : Answers ov bp l) (bits : List Bool) :
    ∀ (t : BinTree) (pre suf : List Bool), l = pre ++ (t.code ++ suf) → ∀ (bs : List Bool) (fuel steps closes : Nat), bits.drop steps = bs → bs.length < fuel →
      ∃ n, (t.walk bs).2 = bs.drop n ∧ n ≤ bs.length ∧ (t ≠ .leaf → bs ≠ [] → 0 < n) ∧
        visitInner ov bp bits fuel pre.length steps closes = .done (pre.length + (t.walk bs).1, steps + n, closes + (bs.take n).count true) := by
  intro t
  induction t with
  | leaf =>
    intro pre suf hl bs fuel steps closes hbs hf
    refine ⟨0, rfl, Nat.zero_le _, fun c => absurd rfl c, ?_⟩
    obtain ⟨f, rfl⟩ : ∃ f, fuel = f + 1 := ⟨fuel - 1, by omega⟩
    unfold visitInner
    rw [h.access pre.length false (by rw [hl, List.getElem?_append_right (Nat.le_refl _), Nat.sub_self]; rfl), Outcome.of_some, Outcome.done_bind,
      if_neg (by simp)]
    rfl
  | node tl tr ihl ihr =>
    intro pre suf hl bs fuel steps closes hbs hf
    obtain ⟨f, rfl⟩ : ∃ f, fuel = f + 1 := ⟨fuel - 1, by omega⟩
    have hlen : bs.length = bits.length - steps := by rw [← hbs, List.length_drop]
    unfold visitInner
    rw [h.access pre.length true (by rw [hl, List.getElem?_append_right (Nat.le_refl _), Nat.sub_self]; rfl), Outcome.of_some, Outcome.done_bind]
    cases bs with
    | nil =>
      rw [List.length_nil] at hlen
      rw [if_neg (by omega)]
      exact ⟨0, rfl, Nat.zero_le _, fun _ c => absurd rfl c, rfl⟩
    | cons b bs =>
      rw [List.length_cons] at hlen hf
      have hb : bits[steps]? = some b := by
        have := congrArg (·[0]?) hbs
        simpa using this
      have hbs' : bits.drop (steps + 1) = bs := by
        have := congrArg List.tail hbs
        simpa using this
      rw [if_pos ⟨rfl, by omega⟩, hb, Outcome.of_some, Outcome.done_bind]
      cases b with
      | true =>
        rw [if_pos rfl]
        obtain ⟨a, ha1, ha2⟩ := code_bal tl
        have hm : Matching l pre.length (pre.length + 1 + a.length) := by
          have := matching_mid pre a (tr.code ++ suf) ha2
          rw [hl, BinTree.code, ha1]
          simpa using this
        rw [h.close _ _ hm, Outcome.of_some, Outcome.done_bind]
        have hpos : pre.length + 1 + a.length + 1 = (pre ++ true :: tl.code).length := by
          rw [ha1]; simp; omega
        obtain ⟨n, g1, g2, g3, g4⟩ := ihr (pre ++ true :: tl.code) suf (by rw [hl, BinTree.code]; simp) bs f (steps + 1) (closes + 1) hbs' (by omega)
        rw [hpos, g4]
        refine ⟨n + 1, ?_, by rw [List.length_cons]; omega, fun _ _ => by omega, ?_⟩
        · rw [BinTree.walk, if_pos rfl, List.drop_succ_cons]; exact g1
        · rw [BinTree.walk, if_pos rfl, List.take_succ_cons, List.count_cons_self]
          congr 2
          · rw [List.length_append, List.length_cons]; dsimp only; omega
          · congr 1 <;> omega
      | false =>
        rw [if_neg (by simp)]
        have hpos : pre.length + 1 = (pre ++ [true]).length := by simp
        obtain ⟨n, g1, g2, g3, g4⟩ := ihl (pre ++ [true]) (tr.code ++ suf) (by rw [hl, BinTree.code]; simp) bs f (steps + 1) closes hbs' (by omega)
        rw [hpos, g4]
        refine ⟨n + 1, ?_, by rw [List.length_cons]; omega, fun _ _ => by omega, ?_⟩
        · rw [BinTree.walk, if_neg (by simp), List.drop_succ_cons]; exact g1
        · rw [BinTree.walk, if_neg (by simp), List.take_succ_cons, List.count_cons_of_ne (by simp)]
          congr 2
          · rw [← hpos]; dsimp only; omega
          · congr 1; omega

theorem outer_ok {ov : Word → Nat → Word} {bp : BpVector} {t : BinTree} (h : Answers ov bp (true :: t.code)) (ht : t ≠ .leaf) (bits : List Bool) :
    ∀ (k : Nat) (bs : List Bool) (fuel steps closes foo : Nat), bits.drop steps = bs → bs.length ≤ k → 2 * bs.length < fuel →
      ∃ q, t.Walks bs foo q ∧ visitOuter ov bp bits fuel steps closes (1 + foo) = .done (closes + bs.count true, 1 + q) := by
  intro k
  induction k with
  | zero =>
    intro bs fuel steps closes foo hbs hk hf
    obtain rfl : bs = [] := List.length_eq_zero_iff.1 (by omega)
    obtain ⟨f, rfl⟩ : ∃ f, fuel = f + 1 := ⟨fuel - 1, by omega⟩
    have := List.drop_eq_nil_iff.1 hbs
    refine ⟨foo, .stop, ?_⟩
    unfold visitOuter
    rw [if_neg (by omega)]; rfl
  | succ k ih =>
    intro bs fuel steps closes foo hbs hk hf
    by_cases h0 : bs = []
    · exact ih bs fuel steps closes foo hbs (by rw [h0]; exact Nat.zero_le _) hf
    obtain ⟨f, rfl⟩ : ∃ f, fuel = f + 1 := ⟨fuel - 1, by omega⟩
    have hlen : bs.length = bits.length - steps := by rw [← hbs, List.length_drop]
    have hpos := List.length_pos_iff.2 h0
    obtain ⟨n, g1, g2, g3, g4⟩ := inner_ok h bits t [true] [] (by simp) bs f steps closes hbs (by omega)
    have hn := g3 ht h0
    obtain ⟨q, q1, q2⟩ := ih (bs.drop n) f (steps + n) (closes + (bs.take n).count true) (t.walk bs).1 (by rw [← hbs, List.drop_drop])
      (by rw [List.length_drop]; omega) (by rw [List.length_drop]; omega)
    refine ⟨q, .more h0 (by rw [g1]; exact q1), ?_⟩
    unfold visitOuter
    rw [if_pos (by omega)]
    rw [List.length_singleton] at g4
    rw [g4, Outcome.done_bind]
    dsimp only
    rw [q2, Nat.add_assoc, ← List.count_append, List.take_append_drop]

theorem walk_lt : ∀ (t : BinTree) (bs : List Bool), (t.walk bs).1 < t.code.length
  | .leaf, _ => Nat.zero_lt_one
  | .node _ _, [] => by simp [BinTree.walk, BinTree.code]
  | .node l r, b :: bs => by
    have h1 := walk_lt l bs
    have h2 := walk_lt r bs
    rw [BinTree.walk]
    simp only [BinTree.code, List.length_cons, List.length_append]
    split
    · dsimp only; omega
    · dsimp only; omega

theorem walks_le (t : BinTree) : ∀ {bs : List Bool} {p q : Nat}, t.Walks bs p q → p < t.code.length → q < t.code.length := by
  intro bs p q h
  induction h with
  | stop => exact fun h => h
  | more _ _ ih => exact fun _ => ih (walk_lt t _)

theorem walks_lt (t : BinTree) {bs : List Bool} {q : Nat} (h0 : 0 < t.code.length) (h : t.Walks bs 0 q) : q < t.code.length := walks_le t h h0

theorem walks_unique {t : BinTree} : ∀ {bs : List Bool} {p q q' : Nat}, t.Walks bs p q → t.Walks bs p q' → q = q' := by
  intro bs p q q' h h'
  induction h with
  | stop =>
    cases h' with
    | stop => rfl
    | more c _ => exact absurd rfl c
  | more c _ ih =>
    cases h' with
    | stop => exact absurd rfl c
    | more _ h2 => exact ih h2

theorem mapM_all {α β : Type} (f : α → Option β) (Q : α → β → Prop) : ∀ (l : List α), (∀ x ∈ l, ∃ y, f x = some y ∧ Q x y) →
    ∃ r, l.mapM f = some r ∧ r.length = l.length ∧ ∀ y ∈ r, ∃ x ∈ l, Q x y
  | [], _ => ⟨[], rfl, rfl, by simp⟩
  | x :: l, h => by
    obtain ⟨y, e1, h1⟩ := h x List.mem_cons_self
    obtain ⟨r, e2, h2, h3⟩ := mapM_all f Q l fun z hz => h z (List.mem_cons_of_mem _ hz)
    refine ⟨y :: r, by rw [List.mapM_cons, e1, bind_pure_some, e2]; rfl, by rw [List.length_cons, List.length_cons, h2], fun z hz => ?_⟩
    rcases List.mem_cons.1 hz with rfl | hz
    · exact ⟨x, List.mem_cons_self, h1⟩
    · obtain ⟨w, hw, hq⟩ := h3 z hz
      exact ⟨w, List.mem_cons_of_mem _ hw, hq⟩

theorem mapM_eq {α β : Type} (f : α → Option β) (g : α → β) : ∀ (l : List α), (∀ x ∈ l, f x = some (g x)) → l.mapM f = some (l.map g)
  | [], _ => rfl
  | x :: l, h => by
    rw [List.mapM_cons, h x List.mem_cons_self, bind_pure_some, mapM_eq f g l fun z hz => h z (List.mem_cons_of_mem _ hz)]; rfl

theorem randPair_ok (size r s : Nat) (hs : 0 < size) : ∃ p, randPair size r s = some p ∧ p.1 ≤ p.2 ∧ p.2 < size := by
  have h1 : r % size < size := Nat.mod_lt _ hs
  have h2 : s % (size - r % size) < size - r % size := Nat.mod_lt _ (by omega)
  unfold randPair
  dsimp only
  rw [assertP_eq _ (by omega), bind_pure_some, subU_eq _ _ (by omega), bind_pure_some, assertP_eq _ (by omega), bind_pure_some]
  exact ⟨_, rfl, by dsimp only; omega, by dsimp only; omega⟩

theorem timeAvgRmq_ok {β : Type} (size : Nat) (query : Nat → Nat → Option β) (P : Nat → Nat → β → Prop) (hs : 0 < size)
    (hq : ∀ a b, a ≤ b → b < size → ∃ x, query a b = some x ∧ P a b x) (rand : Nat → Nat) (sample : Nat) :
    ∃ l, timeAvgRmq size query rand sample = some l ∧ l.length = sample ∧ ∀ r ∈ l, r.1 ≤ r.2.1 ∧ r.2.1 < size ∧ P r.1 r.2.1 r.2.2 := by
  obtain ⟨ps, e1, h1, h2⟩ := mapM_all (fun i => randPair size (rand (2 * i)) (rand (2 * i + 1))) (fun _ p => p.1 ≤ p.2 ∧ p.2 < size) (List.range sample)
    (fun i _ => randPair_ok size _ _ hs)
  obtain ⟨r, e2, h3, h4⟩ := mapM_all (fun r : Nat × Nat => query r.1 r.2 >>= fun x => pure (r.1, r.2, x))
    (fun _ r => r.1 ≤ r.2.1 ∧ r.2.1 < size ∧ P r.1 r.2.1 r.2.2) ps (fun p hp => by
      obtain ⟨_, _, c1, c2⟩ := h2 p hp
      obtain ⟨x, x1, x2⟩ := hq p.1 p.2 c1 c2
      exact ⟨(p.1, p.2, x), by rw [x1]; rfl, c1, c2, x2⟩)
  refine ⟨r, ?_, by rw [h3, h1, List.length_range], fun x hx => ?_⟩
  · unfold timeAvgRmq
    rw [e1, bind_pure_some]
    exact e2
  · obtain ⟨_, _, c⟩ := h4 x hx
    exact c

theorem randPair_every (size a b : Nat) (hab : a ≤ b) (hb : b < size) : randPair size a (b - a) = some (a, b) := by
  unfold randPair
  dsimp only
  rw [Nat.mod_eq_of_lt (show a < size by omega), assertP_eq _ (by omega), bind_pure_some, subU_eq _ _ (by omega), bind_pure_some, assertP_eq _ (by omega),
    bind_pure_some, Nat.mod_eq_of_lt (by omega), Nat.add_sub_cancel' hab]
  rfl

theorem timeAvgRmq_every {β : Type} (size : Nat) (query : Nat → Nat → Option β) (ps : List (Nat × Nat)) (h : ∀ p ∈ ps, p.1 ≤ p.2 ∧ p.2 < size)
    (f : Nat → Nat → β) (hq : ∀ a b, a ≤ b → b < size → query a b = some (f a b)) :
    ∃ rand, timeAvgRmq size query rand ps.length = some (ps.map fun p => (p.1, p.2, f p.1 p.2)) := by
  let rand : Nat → Nat := fun k => let p := ps.getD (k / 2) (0, 0); if k % 2 = 0 then p.1 else p.2 - p.1
  refine ⟨rand, ?_⟩
  have e1 : (List.range ps.length).mapM (fun i => randPair size (rand (2 * i)) (rand (2 * i + 1))) = some ps := by
    rw [mapM_eq _ (fun i => ps.getD i (0, 0)) _ (fun i hi => ?_)]
    · congr 1
      apply List.ext_getElem
      · simp
      · intro i h1 h2
        rw [List.getElem_map, List.getElem_range, List.getD_eq_getElem?_getD, List.getElem?_eq_getElem h2]; rfl
    · have hi := List.mem_range.1 hi
      have hp : ps.getD i (0, 0) = ps[i] := by rw [List.getD_eq_getElem?_getD, List.getElem?_eq_getElem hi]; rfl
      have r1 : rand (2 * i) = ps[i].1 := by
        show (if 2 * i % 2 = 0 then (ps.getD (2 * i / 2) (0, 0)).1 else _) = _
        rw [if_pos (by omega), show 2 * i / 2 = i by omega, hp]
      have r2 : rand (2 * i + 1) = ps[i].2 - ps[i].1 := by
        show (if (2 * i + 1) % 2 = 0 then _ else (ps.getD ((2 * i + 1) / 2) (0, 0)).2 - (ps.getD ((2 * i + 1) / 2) (0, 0)).1) = _
        rw [if_neg (by omega), show (2 * i + 1) / 2 = i by omega, hp]
      obtain ⟨c1, c2⟩ := h ps[i] (List.getElem_mem _)
      rw [r1, r2, randPair_every size _ _ c1 c2, hp]
  unfold timeAvgRmq
  rw [e1, bind_pure_some, mapM_eq _ (fun p => (p.1, p.2, f p.1 p.2)) _ (fun p hp => by rw [hq p.1 p.2 (h p hp).1 (h p hp).2]; rfl)]

end Perf
end Succinct
