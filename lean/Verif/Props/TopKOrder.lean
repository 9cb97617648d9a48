import Verif.Props.CartesianTree

/-!
# C71: the answers of `topk` for different parameters are consistent
-/
namespace Succinct
open Spec

/-- the entries of a subrange -/
theorem entries_filter {α : Type} (v : List α) (a b a' b' : Nat) (ha : a ≤ a') (hb : b' ≤ b) :
    (entries v a b).filter (fun e => decide (a' ≤ e.2 ∧ e.2 ≤ b')) = entries v a' b' := by
  unfold entries
  rw [List.filter_filterMap]
  have h1 : ∀ l : List Nat, l.filterMap (fun x => Option.filter (fun e : α × Nat => decide (a' ≤ e.2 ∧ e.2 ≤ b')) (Option.map (fun y => (y, x)) v[x]?)) =
      (l.filter fun x => decide (a' ≤ x ∧ x ≤ b')).filterMap fun i => v[i]?.map fun x => (x, i) := by
    intro l
    induction l with
    | nil => rfl
    | cons x l ih =>
      rw [List.filterMap_cons, List.filter_cons, ih]
      by_cases h : a' ≤ x ∧ x ≤ b'
      · rw [if_pos (by simpa using h), List.filterMap_cons]
        cases hx : v[x]? <;> simp [h, Option.filter]
      · rw [if_neg (by simpa using h)]
        cases hx : v[x]? <;> simp [h, Option.filter]
  rw [h1]
  congr 1
  -- the indices
  apply List.Perm.eq_of_pairwise (le := fun x y : Nat => x < y) (fun x y _ _ h1 h2 => by omega)
  · exact (List.pairwise_lt_range' ..).filter _
  · exact List.pairwise_lt_range' ..
  · refine (List.perm_ext_iff_of_nodup ?_ ?_).2 fun x => ?_
    · exact (List.nodup_range' ..).filter _
    · exact List.nodup_range' ..
    · simp only [List.mem_filter, List.mem_range'_1, decide_eq_true_eq]
      omega

theorem ranking_filter {α : Type} {lt : α → α → Bool} {v : List α} {a b : Nat} {s : List (α × Nat)} (h : IsRanking lt v a b s)
    (a' b' : Nat) (ha : a ≤ a') (hb : b' ≤ b) : IsRanking lt v a' b' (s.filter fun e => decide (a' ≤ e.2 ∧ e.2 ≤ b')) := by
  refine ⟨?_, h.2.filter _⟩
  rw [← entries_filter v a b a' b' ha hb]
  exact h.1.filter _

/-- **C71**: `topk(a, b, k)` is a prefix of `topk(a, b, k')` for `k ≤ k'`, and has `min(k, b - a + 1)`
entries. -/
theorem C71_prefix {α : Type} (o : Ops α) (ho : TotalOrder o.lt o.eq) (h : HeapOps (QElem α)) (hh : h.Valid (viComp o))
    (v : List α) (hv : v.length < 2^30 - 1) :
    ∃ t, TopK.build o v = some t ∧
      ∀ a b k k', a ≤ b → b < v.length → k ≤ k' → ∃ r r', t.topk h a b k = some r ∧ t.topk h a b k' = some r' ∧
        r <+: r' ∧ r.length = min k (b - a + 1) := by
  obtain ⟨t, e, q⟩ := C38_topk o ho h hh v hv
  refine ⟨t, e, fun a b k k' hab hb hk => ?_⟩
  obtain ⟨s, s1, s2, s3⟩ := q a b k hab hb
  obtain ⟨s', s1', _, s3'⟩ := q a b k' hab hb
  obtain rfl := C38_unique o ho v a b s s' s1 s1'
  refine ⟨_, _, s3, s3', ?_, by rw [List.length_take, s2]⟩
  rw [show s.take k = (s.take k').take k by rw [List.take_take, Nat.min_eq_left hk]]
  exact List.take_prefix _ _

/-- **C71**: the answer does not depend on which heap functions the standard library provides. -/
theorem C71_heap {α : Type} (o : Ops α) (ho : TotalOrder o.lt o.eq) (h h' : HeapOps (QElem α)) (hh : h.Valid (viComp o)) (hh' : h'.Valid (viComp o))
    (v : List α) (hv : v.length < 2^30 - 1) :
    ∃ t, TopK.build o v = some t ∧ ∀ a b k, a ≤ b → b < v.length → t.topk h a b k = t.topk h' a b k := by
  obtain ⟨t, e, q⟩ := C38_topk o ho h hh v hv
  obtain ⟨t', e', q'⟩ := C38_topk o ho h' hh' v hv
  rw [e] at e'
  cases e'
  refine ⟨t, e, fun a b k hab hb => ?_⟩
  obtain ⟨s, s1, _, s3⟩ := q a b k hab hb
  obtain ⟨s', s1', _, s3'⟩ := q' a b k hab hb
  obtain rfl := C38_unique o ho v a b s s' s1 s1'
  rw [s3, s3']

/-- **C71**: the first entry is the one `rmq` finds in the Cartesian tree of maxima over the same
sequence. -/
theorem C71_first {α : Type} (o : Ops α) (ho : TotalOrder o.lt o.eq) (h : HeapOps (QElem α)) (hh : h.Valid (viComp o))
    (v : List α) (hv : v.length < 2^30 - 1) :
    ∃ t c, TopK.build o v = some t ∧ CartesianTree.build (fun x y => o.lt y x) v = some c ∧
      ∀ a b, a ≤ b → b < v.length → ∃ m x, c.rmq a b = some m ∧ v[m]? = some x ∧ t.topk h a b 1 = some [(x, m)] := by
  obtain ⟨t, e, q⟩ := C38_topk o ho h hh v hv
  obtain ⟨c, ec, qc⟩ := C36_rmq _ ho.weak.converse v hv
  refine ⟨t, c, e, ec, fun a b hab hb => ?_⟩
  obtain ⟨s, ⟨s1, s1'⟩, s2, s3⟩ := q a b 1 hab hb
  obtain ⟨m, r, hm⟩ := qc a b hab hb
  obtain ⟨h1, h2, h3, h4⟩ := leftmost_strict ho.weak.converse hb hm
  have hml : m < v.length := by omega
  refine ⟨m, v[m], r, List.getElem?_eq_getElem hml, ?_⟩
  rw [s3]
  cases s with
  | nil => simp at s2
  | cons e s =>
    rw [List.take_succ_cons, List.take_zero]
    -- the entry at `m` is in the ranking; if it is not the first, the first comes before it
    have hin : (v[m], m) ∈ e :: s := (s1.mem_iff).2 (TopKEnum.mem_entries.2 ⟨h1, h2, List.getElem?_eq_getElem hml⟩)
    have he : e ∈ entries v a b := (s1.mem_iff).1 List.mem_cons_self
    obtain ⟨e1, e2, e3⟩ := TopKEnum.mem_entries.1 he
    rcases List.mem_cons.1 hin with g | g
    · rw [g]
    · exfalso
      have hbf := (List.pairwise_cons.1 s1').1 _ g
      have hel : e.2 < v.length := by omega
      rw [List.getElem?_eq_getElem hel] at e3
      have e3 := Option.some.inj e3
      have k4 : o.lt v[m] e.1 = false := by rw [← e3]; exact h4 e.2 hel hml e1 e2
      rcases hbf with g | ⟨g1, g2, g3⟩
      · simp only [k4] at g; simp at g
      · have k3 : o.lt e.1 v[m] = true := by rw [← e3]; exact h3 e.2 hel hml e1 g3
        simp only [k3] at g1; simp at g1

/-- **C71**: narrowing the range.  The entries of `topk(a, b, k)` that lie in `[a', b']` are the first
entries of `topk(a', b', k)`. -/
theorem C71_subrange {α : Type} (o : Ops α) (ho : TotalOrder o.lt o.eq) (h : HeapOps (QElem α)) (hh : h.Valid (viComp o))
    (v : List α) (hv : v.length < 2^30 - 1) :
    ∃ t, TopK.build o v = some t ∧
      ∀ a b a' b' k, a ≤ a' → a' ≤ b' → b' ≤ b → b < v.length → ∃ r r', t.topk h a b k = some r ∧ t.topk h a' b' k = some r' ∧
        r.filter (fun e => decide (a' ≤ e.2 ∧ e.2 ≤ b')) <+: r' := by
  obtain ⟨t, e, q⟩ := C38_topk o ho h hh v hv
  refine ⟨t, e, fun a b a' b' k h1 h2 h3 h4 => ?_⟩
  obtain ⟨s, s1, _, s3⟩ := q a b k (by omega) h4
  obtain ⟨s', s1', _, s3'⟩ := q a' b' k h2 (by omega)
  obtain rfl := C38_unique o ho v a' b' s' _ s1' (ranking_filter s1 a' b' h1 h3)
  refine ⟨_, _, s3, s3', ?_⟩
  have hp : (s.take k).filter (fun e => decide (a' ≤ e.2 ∧ e.2 ≤ b')) <+: s.filter (fun e => decide (a' ≤ e.2 ∧ e.2 ≤ b')) :=
    (List.take_prefix k s).filter _
  rw [List.prefix_take_iff]
  exact ⟨hp, Nat.le_trans (List.length_filter_le _ _) (by rw [List.length_take]; omega)⟩

/-- the three largest of the range and of a subrange -/
example : ((TopK.build natOps [3, 9, 4, 9, 5, 2, 7] >>= fun t => t.topk (sortHeap (viComp natOps)) 0 6 3) = some [(9, 1), (9, 3), (7, 6)]) ∧
    ((TopK.build natOps [3, 9, 4, 9, 5, 2, 7] >>= fun t => t.topk (sortHeap (viComp natOps)) 2 5 3) = some [(9, 3), (5, 4), (4, 2)]) := by
  decide +kernel
example : TotalOrder natOps.lt natOps.eq ∧ (sortHeap (viComp natOps)).Valid (viComp natOps) :=
  ⟨natOps_total, sortHeap_valid (viComp_strictWeak natOps natOps_total)⟩

end Succinct
