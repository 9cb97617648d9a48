import Verif.Lemmas.MappableAlloc
import Mathlib.Data.List.Perm.Basic
import Mathlib.Data.List.Nodup

/-! # C84: `mappable_vector` when memory runs out or an iterator throws -/
namespace Succinct
open Spec Mappable
variable {α : Type}

/-- **C84.**  A program in which any `new` may throw and any iterator may throw in the middle of a copy: nothing is freed twice or read after being freed,
exactly the specified operations throw, and in the end every vector has the specified contents, or (after a failed `steal`) a `size()` and no element that
could be read.  The buffers not yet freed are those owned by exactly one vector each, and the `n` lost ones. -/
theorem C84_ownership (cs : List (Cmd α × Fault)) (a : Vals α) (ts : List Bool) (n : Nat) (h : effects (fun _ => none) cs = some (a, ts, n)) :
    ∃ s, runA init cs = some (s, ts) ∧
      (∀ i, (s.vecs i).isSome = (a i).isSome) ∧
      (∀ i v xs, s.vecs i = some v → a i = some (.ok xs) → v.size = xs.length ∧ ∀ k, get s.heap v k = xs[k]?) ∧
      (∀ i v m, s.vecs i = some v → a i = some (.broken m) → v.size = m ∧ 0 < m ∧ v.deleter = none ∧ ∀ k, get s.heap v k = none) ∧
      (∀ i v id, s.vecs i = some v → v.deleter = some id → ∃ ys, s.heap[id]? = some (some ys)) ∧
      ∃ L : List Nat, L.length = n ∧ L.Nodup ∧ ∀ id ys, s.heap[id]? = some (some ys) →
        (id ∈ L ∧ ∀ i v, s.vecs i = some v → v.deleter ≠ some id) ∨
        (id ∉ L ∧ ∃ i, (∃ v, s.vecs i = some v ∧ v.deleter = some id) ∧ ∀ j w, s.vecs j = some w → w.deleter = some id → j = i) := by
  obtain ⟨s, L, e, hi, hl⟩ := runA_inv initA_inv h
  refine ⟨s, e, ?_, ?_, ?_, fun i v id hv hd => (hi.owned i v id hv hd).1, L, by simpa using hl, hi.nodup, ?_⟩
  · intro i
    cases h : a i with
    | none => rw [hi.dead i h]; rfl
    | some xs => obtain ⟨v, hv, _⟩ := hi.live i xs h; rw [hv]; rfl
  · intro i v xs hv ha
    obtain ⟨v', hv', hc, hs⟩ := hi.live i _ ha
    rw [hv] at hv'; cases hv'
    exact ⟨hs, get_of_contents hc hs⟩
  · intro i v m hv ha
    obtain ⟨v', hv', hc, hs⟩ := hi.live i _ ha
    rw [hv] at hv'; cases hv'
    subst hc
    refine ⟨rfl, hs, rfl, fun k => ?_⟩
    unfold Mappable.get
    split <;> rfl
  · intro id ys hy
    by_cases hL : id ∈ L
    · exact .inl ⟨hL, fun i v hv hd => (hi.owned i v id hv hd).2 hL⟩
    · obtain ⟨i, v, hv, hd⟩ := hi.noLeak id ys hy hL
      exact .inr ⟨hL, i, ⟨v, hv, hd⟩, fun j w hw hwd => hi.inj j i w v id hw hv hwd hd⟩

/-- Once every vector has been destroyed exactly the lost buffers are still allocated: one for each iterator that threw, none for a `new` that threw. -/
theorem C84_leak (cs : List (Cmd α × Fault)) (a : Vals α) (ts : List Bool) (n : Nat) (h : effects (fun _ => none) cs = some (a, ts, n)) (hd : ∀ i, a i = none) :
    ∃ s, runA init cs = some (s, ts) ∧ (s.heap.filter Option.isSome).length = n := by
  obtain ⟨s, L, e, hi, hl⟩ := runA_inv initA_inv h
  refine ⟨s, e, ?_⟩
  have hp : L.Perm ((List.range s.heap.length).filter fun id => (s.heap[id]?).join.isSome) := by
    refine (List.perm_ext_iff_of_nodup hi.nodup (List.nodup_range.filter _)).2 fun id => ?_
    rw [List.mem_filter, List.mem_range]
    constructor
    · intro hL
      obtain ⟨xs, hx⟩ := hi.lost id hL
      exact ⟨heap_lt hx, by rw [hx]; rfl⟩
    · rintro ⟨h1, h2⟩
      by_contra hL
      cases hx : s.heap[id]? with
      | none => rw [hx] at h2; cases h2
      | some b =>
        cases b with
        | none => rw [hx] at h2; cases h2
        | some xs =>
          obtain ⟨i, v, hv, _⟩ := hi.noLeak id xs hx hL
          rw [hi.dead i (hd i)] at hv; cases hv
  have hc : ∀ h : Heap α, (h.filter Option.isSome).length = ((List.range h.length).filter fun id => (h[id]?).join.isSome).length := by
    intro h
    induction h with
    | nil => rfl
    | cons b h ih =>
      rw [List.length_cons, List.range_succ_eq_map, List.filter_cons, List.filter_cons, List.filter_map]
      have : ((fun id => (((b :: h)[id]?).join).isSome) ∘ Nat.succ) = fun id => ((h[id]?).join).isSome := by
        funext id; simp
      rw [this]
      cases b with
      | none => simpa using ih
      | some xs => simpa using ih
  rw [hc, ← hp.length_eq]
  simpa using hl

/-- a program in which `steal` fails and is repeated, an assignment fails, and an iterator throws -/
def exampleFaults : List (Cmd Nat × Fault) :=
  [(.new 0, .alloc), (.steal 0 [1, 2, 3], .alloc), (.newRange 1 [4], .alloc), (.newRange 1 [4, 5], .copy), (.newRange 1 [6], .none), (.swap 0 1, .none),
   (.steal 1 [1, 2, 3], .none), (.assignVec 0 1, .alloc), (.assign 0 [7, 8], .copy), (.map 0 [9], .alloc), (.steal 0 [], .alloc),
   (.destroy 0, .none), (.destroy 1, .none)]

example : ∃ a, effects (fun _ => none) exampleFaults =
      some (a, [false, true, true, true, false, false, false, true, true, false, false, false, false], 2) ∧ ∀ i, a i = none := by
  refine ⟨_, rfl, fun i => ?_⟩
  simp only [Vals.set]
  repeat (first | rfl | split)

/-- after a failed `steal` the vector claims to have elements -/
example : ∃ s v, runA init [(.newRange 0 [7], .none), (.steal 0 [1, 2, 3], .alloc)] = some (s, [false, true]) ∧ s.vecs 0 = some v ∧ v.size = 3 ∧
    Mappable.get s.heap v 0 = none := ⟨_, _, rfl, rfl, rfl, rfl⟩

end Succinct
