import Verif.Lemmas.TopK

/-!
# C36-C39: `cartesian_tree` and `topk_vector`
-/
namespace Succinct
open Spec
open RSBitVector (bind_pure_some)

theorem CartesianTree.build_spec {α : Type} (comp : α → α → Bool) (v : List α) (hv : v.length < 2^30 - 1) (expected : Nat) (r : Bool) :
    ∃ t, (CartesianBuilder.new expected r >>= CartesianBuilder.pushAll comp v >>= CartesianTree.ofBuilder) = some t ∧
      t.bp.rs.bv = BitVector.ofRange (Cart.fin comp v) ∧ BpVector.Inv t.bp (Cart.fin comp v) := by
  obtain ⟨s, e, h⟩ := CartesianBuilder.new_ok (α := α) expected r
  obtain ⟨s1, e1, h1⟩ := CartesianBuilder.pushAll_ok comp v s _ h
  obtain ⟨t, e2, h2⟩ := CartesianTree.ofBuilder_spec comp v hv s1 h1
  rw [e, bind_pure_some, e1, bind_pure_some]
  exact ⟨t, e2, h2⟩

theorem CartesianTree.build_eq {α : Type} (comp : α → α → Bool) (v : List α) :
    CartesianTree.build comp v = (CartesianBuilder.new 0 false >>= CartesianBuilder.pushAll comp v >>= CartesianTree.ofBuilder) := by
  unfold CartesianTree.build
  cases h : CartesianBuilder.new (α := α) 0 false <;> rfl

/-- **C36**: `rmq(a, b)` of a cartesian tree over `v` is the smallest index in `[a, b]` holding a
minimum of `v[a..b]`, for every strict weak order. -/
theorem C36_rmq {α : Type} (comp : α → α → Bool) (ho : StrictWeak comp) (v : List α) (hv : v.length < 2^30 - 1) :
    ∃ t, CartesianTree.build comp v = some t ∧
      ∀ a b, a ≤ b → b < v.length → ∃ m, t.rmq a b = some m ∧ IsLeftmostMin comp v a b m := by
  obtain ⟨t, e, hb, hi⟩ := CartesianTree.build_spec comp v hv 0 false
  refine ⟨t, by rw [CartesianTree.build_eq, e], fun a b hab hbv => ?_⟩
  obtain ⟨m, hm⟩ := leftmost_exists ho v a b hab hbv
  obtain ⟨h1, h2, h3, h4⟩ := leftmost_strict ho hbv hm
  refine ⟨m, ?_, hm⟩
  exact CartesianTree.rmq_spec comp hv hb hi a b m h1 h2 hbv (fun k hk k1 k2 => h3 k hk (by omega) k1 k2)
    (fun k hk k1 k2 => h4 k hk (by omega) (by omega) k2)

/-- **C36**, for a tree made from a `builder` filled by the caller, with any `expected_size`. -/
theorem C36_rmq_builder {α : Type} (comp : α → α → Bool) (ho : StrictWeak comp) (v : List α) (hv : v.length < 2^30 - 1)
    (expected : Nat) (r : Bool) :
    ∃ t, (CartesianBuilder.new expected r >>= CartesianBuilder.pushAll comp v >>= CartesianTree.ofBuilder) = some t ∧
      ∀ a b, a ≤ b → b < v.length → ∃ m, t.rmq a b = some m ∧ IsLeftmostMin comp v a b m := by
  obtain ⟨t, e, hb, hi⟩ := CartesianTree.build_spec comp v hv expected r
  refine ⟨t, e, fun a b hab hbv => ?_⟩
  obtain ⟨m, hm⟩ := leftmost_exists ho v a b hab hbv
  obtain ⟨h1, h2, h3, h4⟩ := leftmost_strict ho hbv hm
  exact ⟨m, CartesianTree.rmq_spec comp hv hb hi a b m h1 h2 hbv (fun k hk k1 k2 => h3 k hk (by omega) k1 k2)
    (fun k hk k1 k2 => h4 k hk (by omega) (by omega) k2), hm⟩

/-- the leftmost minimum is unique, so C36 determines the result -/
theorem C36_unique {α : Type} (comp : α → α → Bool) (v : List α) (a b m m' : Nat)
    (h : IsLeftmostMin comp v a b m) (h' : IsLeftmostMin comp v a b m') : m = m' := by
  rcases Nat.lt_trichotomy m m' with g | g | g
  · exact absurd h.1 (h'.2 m g)
  · exact g
  · exact absurd h'.1 (h.2 m' g)

/-- the usual order of the natural numbers -/
theorem natLt_strictWeak : StrictWeak (fun a b : Nat => decide (a < b)) where
  irrefl := fun a => by simp
  trans := fun a b c h1 h2 => by simp at *; omega
  incomp := fun a b c h1 h2 h3 h4 => by simp at *; omega

example : (CartesianTree.build (fun a b : Nat => decide (a < b)) [3, 1, 4, 1, 5, 9, 2, 6] >>= fun t => t.rmq 0 7) = some 1 := by decide +kernel
example : (CartesianTree.build (fun a b : Nat => decide (a < b)) [3, 1, 4, 1, 5, 9, 2, 6] >>= fun t => t.rmq 2 6) = some 3 := by decide +kernel
example : (CartesianTree.build (fun a b : Nat => decide (a < b)) [3, 1, 4, 1, 5, 9, 2, 6] >>= fun t => t.rmq 4 7) = some 6 := by decide +kernel

/-- **C37**: for every sequence and every comparator, consistent or not, the bits handed to
`bp_vector` are balanced and number `2n + 2`. -/
theorem C37_balanced {α : Type} (comp : α → α → Bool) (v : List α) (expected : Nat) (r : Bool) :
    ∃ b l, (CartesianBuilder.new expected r >>= CartesianBuilder.pushAll comp v >>= CartesianBuilder.finalize) = some b ∧
      BitVector.ofBuilder b = some (BitVector.ofRange l) ∧ Bal l ∧ l.length = 2 * v.length + 2 := by
  obtain ⟨s, e, h⟩ := CartesianBuilder.new_ok (α := α) expected r
  obtain ⟨s1, e1, h1⟩ := CartesianBuilder.pushAll_ok comp v s _ h
  obtain ⟨b, e2, i⟩ := CartesianBuilder.finalize_spec comp v s1 h1
  obtain ⟨bv, e3, rep⟩ := BitVector.ofBuilder_rep b _ i
  rw [e, bind_pure_some, e1, bind_pure_some]
  exact ⟨b, Cart.fin comp v, e2, by rw [e3, BitVector.eq_ofRange rep], (bal_iff _).2 (Cart.fin_dyck comp v), Cart.fin_length comp v⟩

/-- **C37**: `size()` is the number of values, for every comparator. -/
theorem C37_size {α : Type} (comp : α → α → Bool) (v : List α) (hv : v.length < 2^30 - 1) :
    ∃ t l, CartesianTree.build comp v = some t ∧ t.bp.rs.bv = BitVector.ofRange l ∧ Bal l ∧ l.length = 2 * v.length + 2 ∧
      t.size = some v.length := by
  obtain ⟨t, e, hb, hi⟩ := CartesianTree.build_spec comp v hv 0 false
  exact ⟨t, _, by rw [CartesianTree.build_eq, e], hb, (bal_iff _).2 (Cart.fin_dyck comp v), Cart.fin_length comp v,
    CartesianTree.size_spec comp hb⟩

/-- a comparator that is not an order at all: the tree over five values still has twelve bits -/
example : (CartesianTree.build (fun _ _ : Nat => true) [1, 2, 3, 4, 5] >>= fun t => t.size) = some 5 := by decide +kernel

theorem TopK.build_built {α : Type} (o : Ops α) (ho : TotalOrder o.lt o.eq) (v : List α) (hv : v.length < 2^30 - 1) :
    ∃ t, TopK.build o v = some t ∧ TopKEnum.Built o v t := by
  obtain ⟨t, e, h⟩ := C36_rmq (fun x y => o.lt y x) ho.weak.converse v hv
  unfold TopK.build
  rw [e, bind_pure_some]
  exact ⟨_, rfl, ⟨rfl, h⟩⟩

/-- **C38**: `topk(a, b, k)` is the ranking of the entries of the range by decreasing value and then
increasing index, cut to `k` entries.  `h` is any implementation of the standard heap functions. -/
theorem C38_topk {α : Type} (o : Ops α) (ho : TotalOrder o.lt o.eq) (h : HeapOps (QElem α)) (hh : h.Valid (viComp o))
    (v : List α) (hv : v.length < 2^30 - 1) :
    ∃ t, TopK.build o v = some t ∧
      ∀ a b k, a ≤ b → b < v.length → ∃ s, IsRanking o.lt v a b s ∧ s.length = b - a + 1 ∧ t.topk h a b k = some (s.take k) := by
  obtain ⟨t, e, hb⟩ := TopK.build_built o ho v hv
  refine ⟨t, e, fun a b k hab hbv => ?_⟩
  obtain ⟨en, e1, hi⟩ := TopKEnum.set_inv ho hb TopKEnum.new a b hab hbv
  have hlen := TopKEnum.entries_length v a b hab hbv
  obtain ⟨s, s1, s2, _, s4⟩ := TopKEnum.deliver ho hh _ en _ rfl hi
  refine ⟨s, ⟨s1, s2⟩, by rw [s1.length_eq, hlen], ?_⟩
  obtain ⟨e', rem', g1, g2, g3⟩ := s4 (min (b - a + 1) k) [] (by rw [hlen]; omega)
  unfold TopK.topk TopK.getEnumerator
  rw [subU_eq _ _ hab, bind_pure_some]
  simp only []
  rw [e1, bind_pure_some, g1, bind_pure_some]
  simp only [List.nil_append]
  have htake : s.take (min (b - a + 1) k) = s.take k := by
    have := s1.length_eq
    rw [List.take_eq_take_iff]; omega
  have hcheck : TopK.topkCheck h (min (b - a + 1) k) k e' = some () := by
    unfold TopK.topkCheck
    split
    · rfl
    · have : rem' = [] := List.length_eq_zero_iff.1 (by rw [g3, hlen]; omega)
      subst this
      rw [TopKEnum.next_empty h g2, bind_pure_some]; rfl
  rw [hcheck, bind_pure_some, htake]
  rfl

/-- a ranking is unique, so C38 determines the result -/
theorem C38_unique {α : Type} (o : Ops α) (ho : TotalOrder o.lt o.eq) (v : List α) (a b : Nat) (s s' : List (α × Nat))
    (h : IsRanking o.lt v a b s) (h' : IsRanking o.lt v a b s') : s = s' :=
  (h.1.trans h'.1.symm).eq_of_pairwise (fun _ _ _ _ h1 h2 => absurd h2 (Before.asymm ho.weak h1)) h.2 h'.2

/-- **C39**: after `get_topk_enumerator(a, b)` (whatever state the enumerator was in before), any number
`k` of calls of `next()` delivers the entries of the range in their ranking, each exactly once, and
returns false from then on. -/
theorem C39_enumerator {α : Type} (o : Ops α) (ho : TotalOrder o.lt o.eq) (h : HeapOps (QElem α)) (hh : h.Valid (viComp o))
    (v : List α) (hv : v.length < 2^30 - 1) :
    ∃ t, TopK.build o v = some t ∧
      ∀ a b e0, a ≤ b → b < v.length → ∃ e s, t.getEnumerator a b e0 = some e ∧ IsRanking o.lt v a b s ∧ s.length = b - a + 1 ∧
        ∀ k, e.nexts h k = some ((List.range k).map fun i => s[i]?) := by
  obtain ⟨t, e, hb⟩ := TopK.build_built o ho v hv
  refine ⟨t, e, fun a b e0 hab hbv => ?_⟩
  obtain ⟨en, e1, hi⟩ := TopKEnum.set_inv ho hb e0 a b hab hbv
  obtain ⟨s, s1, s2, s3, _⟩ := TopKEnum.deliver ho hh _ en _ rfl hi
  exact ⟨en, s, e1, ⟨s1, s2⟩, by rw [s1.length_eq, TopKEnum.entries_length v a b hab hbv], s3⟩

/-! The hypotheses of C38 and C39 can be met: natural numbers, and heap functions that keep the vector
sorted. -/

def natOps : Ops Nat := ⟨fun a b => decide (a < b), fun a b => decide (a = b)⟩

theorem natOps_total : TotalOrder natOps.lt natOps.eq where
  weak := natLt_strictWeak
  eqv := fun a b => by simp [natOps]; omega

/-- insertion into a list sorted from the greatest element down -/
def insDesc {β : Type} (cmp : β → β → Bool) (x : β) : List β → List β
  | [] => [x]
  | y :: l => if cmp y x then x :: y :: l else y :: insDesc cmp x l

def sortDesc {β : Type} (cmp : β → β → Bool) (l : List β) : List β := l.foldr (insDesc cmp) []

/-- `push_heap` sorts, `pop_heap` moves the first element to the end and sorts the rest -/
def sortHeap {β : Type} (cmp : β → β → Bool) : HeapOps β where
  pushHeap q := some (sortDesc cmp q)
  popHeap q := match q with
    | [] => none
    | x :: q => some (sortDesc cmp q ++ [x])

theorem insDesc_perm {β : Type} (cmp : β → β → Bool) (x : β) (l : List β) : (insDesc cmp x l).Perm (x :: l) := by
  induction l with
  | nil => exact List.Perm.refl _
  | cons y l ih =>
    unfold insDesc
    split
    · exact List.Perm.refl _
    · exact (List.Perm.cons y ih).trans (List.Perm.swap _ _ _)

theorem sortDesc_perm {β : Type} (cmp : β → β → Bool) (l : List β) : (sortDesc cmp l).Perm l := by
  induction l with
  | nil => exact List.Perm.refl _
  | cons x l ih => exact (insDesc_perm cmp x _).trans (List.Perm.cons x ih)

theorem insDesc_sorted {β : Type} {cmp : β → β → Bool} (ho : StrictWeak cmp) (x : β) (l : List β)
    (h : l.Pairwise fun a b => cmp a b = false) : (insDesc cmp x l).Pairwise fun a b => cmp a b = false := by
  induction l with
  | nil => simp [insDesc]
  | cons y l ih =>
    unfold insDesc
    rw [List.pairwise_cons] at h
    split
    · rename_i hc
      refine List.Pairwise.cons (fun z hz => ?_) (List.pairwise_cons.2 h)
      rcases List.mem_cons.1 hz with rfl | hz
      · exact ho.asymm hc
      · by_contra hxz
        have := ho.trans _ _ _ hc (by simpa using hxz)
        rw [h.1 z hz] at this; simp at this
    · rename_i hc
      refine List.Pairwise.cons (fun z hz => ?_) (ih h.2)
      rcases List.mem_cons.1 ((insDesc_perm cmp x l).mem_iff.1 hz) with rfl | hz
      · simpa using hc
      · exact h.1 z hz

theorem sortDesc_heap {β : Type} {cmp : β → β → Bool} (ho : StrictWeak cmp) (l : List β) : IsHeap cmp (sortDesc cmp l) := by
  have hs : (sortDesc cmp l).Pairwise fun a b => cmp a b = false := by
    induction l with
    | nil => exact List.Pairwise.nil
    | cons x l ih => exact insDesc_sorted ho x _ ih
  intro i x y h0 hx hy
  rw [List.getElem?_eq_some_iff] at hx hy
  obtain ⟨h1, rfl⟩ := hx
  obtain ⟨h2, rfl⟩ := hy
  exact List.pairwise_iff_getElem.1 hs _ _ h1 h2 (by omega)

theorem sortHeap_valid {β : Type} {cmp : β → β → Bool} (ho : StrictWeak cmp) : (sortHeap cmp).Valid cmp where
  push := fun q x _ => ⟨_, rfl, sortDesc_heap ho _, sortDesc_perm cmp _⟩
  pop := fun x q _ => ⟨_, rfl, sortDesc_heap ho _, sortDesc_perm cmp _⟩

theorem viComp_strictWeak {α : Type} (o : Ops α) (ho : TotalOrder o.lt o.eq) : StrictWeak (viComp o) where
  irrefl := TopKEnum.viComp_irrefl ho
  trans := fun a b c h1 h2 => by
    by_contra hc
    have h3 := (TopKEnum.viComp_iff ho a b).1 h1
    rcases Before.neg ho.weak (c.val, c.mid) h3 with g | g
    · have := (TopKEnum.viComp_iff ho b c).1 h2
      exact Before.asymm ho.weak this g
    · exact hc ((TopKEnum.viComp_iff ho a c).2 g)
  incomp := fun a b c h1 h2 h3 h4 => ⟨TopKEnum.viComp_neg ho a b c h1 h3, TopKEnum.viComp_neg ho c b a h4 h2⟩

/-- both hypotheses about the heap are satisfiable -/
example : (sortHeap (viComp natOps)).Valid (viComp natOps) := sortHeap_valid (viComp_strictWeak _ natOps_total)

example : (TopK.build natOps [3, 9, 4, 9, 5, 2] >>= fun t => t.topk (sortHeap (viComp natOps)) 0 4 3) = some [(9, 1), (9, 3), (5, 4)] := by
  decide +kernel

end Succinct
