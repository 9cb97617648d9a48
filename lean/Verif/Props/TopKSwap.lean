import Verif.Lemmas.TopKSwap
import Verif.Props.CartesianTree

/-! # C128: the enumerator of a `topk_vector` that is swapped -/
namespace Succinct
open Spec
open RSBitVector (bind_pure_some)

/-- **C128**: every history of swaps and calls of `next` is defined if the range lies inside all contents, and what it answers is
exactly this: the entry delivered is the pending one ranked first, and it is replaced by the first entries of the positions left and right
of it in the content now in place.  In the beginning the first entry of the range is pending. -/
theorem C128_topk {α : Type} (o : Ops α) (ho : TotalOrder o.lt o.eq) (h : HeapOps (QElem α)) (hh : h.Valid (viComp o))
    (a : Nat → List α) (ha : ∀ j, (a j).length < 2^30 - 1) :
    ∃ s : Objs (TopK α), (∀ j, TopK.build o (a j) = some (s j)) ∧
      ∀ i lo hi ops, lo ≤ hi → (∀ j, hi < (a j).length) →
        ∃ p, First o.lt (a i) lo hi p ∧ (∃ outs, TopKSwap.start h s i lo hi ops = some outs) ∧
          ∀ outs, TopKSwap.start h s i lo hi ops = some outs ↔ PickMix o.lt i a [p] ops outs := by
  have hex := fun j => TopK.build_built o ho (a j) (ha j)
  refine ⟨fun j => (hex j).choose, fun j => (hex j).choose_spec.1, fun i lo hi ops hlh hin => ?_⟩
  obtain ⟨x, ex, okx, xa, xb⟩ := TopKEnum.elemFor_spec ho (hex i).choose_spec.2 lo hi hlh (hin i)
  have hset : TopK.getEnumerator (hex i).choose lo hi TopKEnum.new = some ⟨some (hex i).choose, [x], none⟩ := by
    unfold TopK.getEnumerator TopKEnum.set
    rw [assertP_eq _ hlh, bind_pure_some, ex, bind_pure_some]
    rfl
  have hf : First o.lt (a i) lo hi (TopKSwap.pend x) := by
    have := TopKSwap.first_of_ok okx
    rw [xa, xb] at this
    exact this
  obtain ⟨outs, o1, o2⟩ := TopKSwap.run_mix ho hh i hi ops (fun j => (hex j).choose) a ⟨some (hex i).choose, [x], none⟩
    (fun j => ⟨(hex j).choose_spec.2, hin j⟩) ⟨_, rfl⟩ ⟨IsHeap.single x, fun y hy => by
      rw [List.mem_singleton.1 hy]
      exact ⟨okx.am, okx.mb, by omega⟩, by
      simp only [List.flatMap_singleton]
      exact List.nodup_range'⟩
  have hrun : TopKSwap.start h (fun j => (hex j).choose) i lo hi ops = some outs := by
    unfold TopKSwap.start
    rw [hset, bind_pure_some, o1]
  refine ⟨_, hf, ⟨outs, hrun⟩, fun outs' => ⟨fun h' => ?_, fun h' => ?_⟩⟩
  · rw [hrun] at h'
    rw [← Option.some.inj h']
    exact o2
  · rw [hrun, PickMix.unique ho o2 _ _ (List.Perm.refl _) h']

/-- **C128**: whatever is swapped, no position is delivered twice, all lie in the range, the calls answer until the range is exhausted and
return false from then on, and each value stood at its position in something the object held. -/
theorem C128_indices {α : Type} (o : Ops α) (ho : TotalOrder o.lt o.eq) (h : HeapOps (QElem α)) (hh : h.Valid (viComp o))
    (a : Nat → List α) (ha : ∀ j, (a j).length < 2^30 - 1) :
    ∃ s : Objs (TopK α), (∀ j, TopK.build o (a j) = some (s j)) ∧
      ∀ i lo hi ops, lo ≤ hi → (∀ j, hi < (a j).length) → ∃ outs, TopKSwap.start h s i lo hi ops = some outs ∧
        outs.length = Spec.nexts ops ∧ (outs.filterMap (Option.map Prod.snd)).Nodup ∧
        (∀ k : Nat, outs[k]? = some none ↔ hi - lo + 1 ≤ k ∧ k < Spec.nexts ops) ∧
        ∀ e, some e ∈ outs → lo ≤ e.2 ∧ e.2 ≤ hi ∧ ∃ c ∈ heldIn i a ops, c[e.2]? = some e.1 := by
  obtain ⟨s, h1, h2⟩ := C128_topk o ho h hh a ha
  refine ⟨s, h1, fun i lo hi ops hlh hin => ?_⟩
  obtain ⟨p, hp, ⟨outs, ho1⟩, hiff⟩ := h2 i lo hi ops hlh hin
  have hsp : [p].flatMap TopKSwap.pspan = List.range' lo (hi + 1 - lo) := by
    rw [List.flatMap_singleton, hp.pspan_eq]
  obtain ⟨g1, g2, g3, g4, g5⟩ := TopKSwap.mix_facts (H := heldIn i a ops) ((hiff outs).1 ho1) (by rw [hsp]; exact List.nodup_range')
    (fun q hq => by
      rw [List.mem_singleton.1 hq]
      exact ⟨hp.facts.1, a i, TopKSwap.held_head i ops a, hp.facts.2⟩) (fun c hc => hc)
  rw [hsp] at g3 g5
  refine ⟨outs, ho1, g1, g2, fun k => ?_, fun e he => ?_⟩
  · rw [g5 k, List.length_range']
    omega
  · have := g3 e.2 (List.mem_filterMap.2 ⟨some e, he, rfl⟩)
    rw [List.mem_range'_1] at this
    exact ⟨by omega, by omega, g4 e he⟩

/-- **C128**: without swaps the answers are the ranking of the range, as in C39. -/
theorem C128_no_swap {α : Type} (o : Ops α) (ho : TotalOrder o.lt o.eq) (h : HeapOps (QElem α)) (hh : h.Valid (viComp o))
    (a : Nat → List α) (ha : ∀ j, (a j).length < 2^30 - 1) :
    ∃ s : Objs (TopK α), (∀ j, TopK.build o (a j) = some (s j)) ∧
      ∀ i lo hi, lo ≤ hi → hi < (a i).length → ∃ r, IsRanking o.lt (a i) lo hi r ∧
        ∀ k, TopKSwap.start h s i lo hi (List.replicate k .next) = some ((List.range k).map fun n => r[n]?) := by
  have hex := fun j => C39_enumerator o ho h hh (a j) (ha j)
  refine ⟨fun j => (hex j).choose, fun j => (hex j).choose_spec.1, fun i lo hi hlh hin => ?_⟩
  obtain ⟨e, r, h1, h2, _, h3⟩ := (hex i).choose_spec.2 lo hi TopKEnum.new hlh hin
  refine ⟨r, h2, fun k => ?_⟩
  have ht := TopKSwap.set_topkv _ _ _ _ _ h1
  unfold TopKSwap.start
  rw [h1, bind_pure_some, TopKSwap.run_nexts h i (fun j => (hex j).choose) k e ht, h3 k]

/-- 9, 1, 2 and 0, 50, 60 -/
def topkSwapXs : Nat → List Nat := fun j => if j = 0 then [9, 1, 2] else [0, 50, 60]

theorem topkSwap_length (j : Nat) : (topkSwapXs j).length = 3 := by
  unfold topkSwapXs
  split <;> rfl

/-- **C128**: the answers may increase, and belong to different contents -/
theorem C128_mixed :
    ∃ s : Objs (TopK Nat), (∀ j, TopK.build natOps (topkSwapXs j) = some (s j)) ∧
      TopKSwap.start (sortHeap (viComp natOps)) s 0 0 2 [.swap 0 1, .next, .next, .swap 0 1, .next, .next]
        = some [some (9, 0), some (60, 2), some (50, 1), none] := by
  obtain ⟨s, h1, h2⟩ := C128_topk natOps natOps_total (sortHeap (viComp natOps)) (sortHeap_valid (viComp_strictWeak _ natOps_total))
    topkSwapXs (fun j => by rw [topkSwap_length]; decide)
  refine ⟨s, h1, ?_⟩
  obtain ⟨p, hp, _, hiff⟩ := h2 0 0 2 [.swap 0 1, .next, .next, .swap 0 1, .next, .next] (by decide) (fun j => by rw [topkSwap_length]; decide)
  have hf : ∀ (c : List Nat) (q : Pending Nat), (q.val, q.idx) ∈ entries c q.lo q.hi →
      (∀ e ∈ entries c q.lo q.hi, e.2 ≠ q.idx → natOps.lt e.1 q.val = true) → First natOps.lt c q.lo q.hi q :=
    fun c q m b => ⟨rfl, rfl, m, fun e he hne => Or.inl (b e he hne)⟩
  have hp0 : p = ⟨9, 0, 0, 2⟩ := First.unique natOps_total hp (hf [9, 1, 2] ⟨9, 0, 0, 2⟩ (by decide) (by decide))
  rw [hp0] at hiff
  refine (hiff _).2 (.swap ?_)
  refine .pick (p := ⟨9, 0, 0, 2⟩) (rest := []) (new := [⟨60, 2, 1, 2⟩]) (List.Perm.refl _) (fun r hr => (by cases hr))
    ⟨[], [⟨60, 2, 1, 2⟩], rfl, Or.inl ⟨rfl, rfl⟩, Or.inr ⟨by decide, _, rfl, hf [0, 50, 60] ⟨60, 2, 1, 2⟩ (by decide) (by decide)⟩⟩ ?_
  refine .pick (p := ⟨60, 2, 1, 2⟩) (rest := []) (new := [⟨50, 1, 1, 1⟩]) (List.Perm.refl _) (fun r hr => (by cases hr))
    ⟨[⟨50, 1, 1, 1⟩], [], rfl, Or.inr ⟨by decide, _, rfl, hf [0, 50, 60] ⟨50, 1, 1, 1⟩ (by decide) (by decide)⟩, Or.inl ⟨rfl, rfl⟩⟩ (.swap ?_)
  refine .pick (p := ⟨50, 1, 1, 1⟩) (rest := []) (new := []) (List.Perm.refl _) (fun r hr => (by cases hr))
    ⟨[], [], rfl, Or.inl ⟨rfl, rfl⟩, Or.inl ⟨rfl, rfl⟩⟩ ?_
  exact .done .nil

end Succinct
