import Verif.Lemmas.FanoSwap
import Verif.Props.Space

/-! # C127: `select_enumerator` of an `elias_fano` that is swapped -/
namespace Succinct
open Broadword Spec
open RSBitVector (bind_pure_some)

/-- **C127**: `elias_fano`s with any contents, a `select_enumerator` on object `i` at `idx`, then any interleaving of swaps of two objects and at most as
many calls of `next` as values were left: the calls are defined exactly if each time object `i` holds a value at the index with the same quotient as the
old one (the assertion) and the low part is held or its old place lies in the low parts of the new content.  The answers are the old
quotients with low parts read through `FanoMix`. -/
theorem C127_select_enumerator (n : Nat → Word) (m : Nat → Nat) (xs : Nat → List Word) (h : ∀ j, Storable (n j) (m j) (xs j)) (wr : Nat → Bool) :
    ∃ s : Objs EliasFano, (∀ j, EliasFano.ofSeq (n j) (m j) (xs j) (wr j) = some (s j)) ∧
      ∀ i idx ops outs, idx < (xs i).length → idx + nexts ops ≤ (xs i).length →
        (FanoSwap.start s i idx ops = some outs ↔
          FanoMix (Nat.log2 ((n i).toNat / m i)) i (xs i) (fun j => (Nat.log2 ((n j).toNat / m j), xs j)) [] 0 idx ops outs) := by
  have hb := fun j => EliasFano.ofSeq_good (n j) (m j) (xs j) (h j) (wr j)
  refine ⟨fun j => (hb j).choose, fun j => (hb j).choose_spec.choose_spec.1, fun i idx ops outs hi hk => ?_⟩
  have hg := fun j => (hb j).choose_spec.choose_spec.2.1
  have hl := fun j => lowLen_log2 (EliasFano.ofSeq_shape (hb j).choose_spec.choose_spec.1).hl
  obtain ⟨e, e1, o⟩ := EliasFano.SelEnum.new_ok (hg i) idx hi
  have hok : FanoSwap.Ok (hb i).choose.l (xs i) (hb i).choose_spec.choose e idx [] 0 := by
    refine ⟨o.idx, o.high, o.zero, fun h0 => ⟨?_, Nat.div_pos (by have := (hg i).lb; omega) (by omega), fun t ht => by omega⟩⟩
    have h1 := (hg i).ones
    unfold EliasFano.SelEnum.new at e1
    obtain ⟨_, _, e1⟩ := Option.bind_eq_some_iff.1 e1
    have h2 : ¬ (hb i).choose.numOnes = 0 := by unfold EliasFano.numOnes; omega
    simp only [if_neg h2] at e1
    obtain ⟨_, _, e1⟩ := Option.bind_eq_some_iff.1 e1
    obtain ⟨_, _, e1⟩ := Option.bind_eq_some_iff.1 e1
    obtain ⟨_, _, e1⟩ := Option.bind_eq_some_iff.1 e1
    cases e1
    exact if_pos h0
  have hs : FanoSwap.Holds (fun j => (hb j).choose) (fun j => (Nat.log2 ((n j).toNat / m j), xs j)) :=
    fun j => ⟨hl j, _, _, hg j⟩
  unfold FanoSwap.start
  simp only []
  rw [e1, bind_pure_some, ← hl i]
  exact ⟨FanoSwap.mix_run (hg i) i ops _ [] 0 idx outs _ e hk hs hok, fun hm => FanoSwap.run_mix (hg i) i hm _ e hs hok⟩

/-- **C127**: so every answer has the quotient of the old value at its index. -/
theorem C127_quotient (l i : Nat) (v : List Word) (a : Nat → Nat × List Word) (src : List Bool) (left k : Nat) (ops : List SeqOp) (outs : List Word)
    (h : FanoMix l i v a src left k ops outs) :
    ∀ j z, outs[j]? = some z → ∃ x, v[k + j]? = some x ∧ z.toNat / 2^l = x.toNat / 2^l := by
  have key : ∀ (s : List Bool) (z x : Word), z.toNat = x.toNat / 2^l * 2^l + bitsToNat (s.take l) → z.toNat / 2^l = x.toNat / 2^l := by
    intro s z x hz
    rw [hz, Nat.mul_comm (x.toNat / 2^l), Nat.mul_add_div (Nat.two_pow_pos _), Nat.div_eq_of_lt (GammaSwap.bitsToNat_take_lt s l), Nat.add_zero]
  induction h with
  | nil => intro j z hj; cases hj
  | swap _ ih => exact ih
  | held hx _ _ _ hz _ ih =>
    intro j z hj
    cases j with
    | zero => cases hj; exact ⟨_, hx, key _ _ _ hz⟩
    | succ j =>
      obtain ⟨x, h1, h2⟩ := ih j z hj
      exact ⟨x, by rw [← h1]; congr 1; omega, h2⟩
  | fresh hx _ _ _ _ hz _ ih =>
    intro j z hj
    cases j with
    | zero => cases hj; exact ⟨_, hx, key _ _ _ hz⟩
    | succ j =>
      obtain ⟨x, h1, h2⟩ := ih j z hj
      exact ⟨x, by rw [← h1]; congr 1; omega, h2⟩

/-- 5 and 6 with 3 low digits each; 1, 1 and 3 with 1 low digit each -/
def fanoSwapN : Nat → Word := fun j => if j = 0 then 16 else 6
def fanoSwapM : Nat → Nat := fun j => if j = 0 then 2 else 3
def fanoSwapXs : Nat → List Word := fun j => if j = 0 then [5, 6] else [1, 1, 3]

theorem storable_le (l : List Word) (n : Word) (h : l.all (fun x => decide (x ≤ n)) = true) : ∀ x ∈ l, x ≤ n :=
  fun x hx => of_decide_eq_true (List.all_eq_true.1 h x hx)

theorem fanoSwap_storable (j : Nat) : Storable (fanoSwapN j) (fanoSwapM j) (fanoSwapXs j) := by
  unfold fanoSwapN fanoSwapM fanoSwapXs
  by_cases h : j = 0
  · simp only [if_pos h]
    exact ⟨by decide +kernel, storable_le [5, 6] 16 (by decide +kernel), by decide, by decide, by decide⟩
  · simp only [if_neg h]
    exact ⟨by decide +kernel, storable_le [1, 1, 3] 6 (by decide +kernel), by decide, by decide, by decide⟩

theorem fanoSwap_mix : FanoMix (Nat.log2 ((fanoSwapN 0).toNat / fanoSwapM 0)) 0 (fanoSwapXs 0)
    (fun j => (Nat.log2 ((fanoSwapN j).toNat / fanoSwapM j), fanoSwapXs j)) [] 0 0 [.swap 0 1, .next, .swap 0 1, .next] [7, 0] := by
  refine .swap (.fresh (x := 5) (y := 1) rfl rfl (by decide +kernel) (by decide +kernel) (by decide +kernel) (by decide +kernel) ?_)
  exact .swap (.held (x := 6) (y := 6) rfl rfl (by decide +kernel) (by decide +kernel) (by decide +kernel) .nil)

/-- **C127**: the answers may be values of neither object, and decreasing -/
theorem C127_mixed :
    (∃ s : Objs EliasFano, (∀ j, EliasFano.ofSeq (fanoSwapN j) (fanoSwapM j) (fanoSwapXs j) false = some (s j)) ∧
      FanoSwap.start s 0 0 [.swap 0 1, .next, .swap 0 1, .next] = some [7, 0]) ∧
    (∀ j, (7 : Word) ∉ fanoSwapXs j ∧ (0 : Word) ∉ fanoSwapXs j) := by
  obtain ⟨s, h1, h2⟩ := C127_select_enumerator fanoSwapN fanoSwapM fanoSwapXs fanoSwap_storable (fun _ => false)
  refine ⟨⟨s, h1, (h2 0 0 _ _ (by decide) (by decide)).2 fanoSwap_mix⟩, fun j => ?_⟩
  unfold fanoSwapXs
  by_cases h : j = 0
  · rw [if_pos h]; decide
  · rw [if_neg h]; decide

/-- **C127**: after a swap with an object whose value has another quotient the assertion fails: 5 is 0·8 + 5, but 9 is 1·8 + 1. -/
theorem C127_other_quotient :
    ∃ s : Objs EliasFano, (∀ j, EliasFano.ofSeq 16 2 (if j = 0 then [5, 6] else [9, 9]) false = some (s j)) ∧
      ∀ outs, FanoSwap.start s 0 0 [.swap 0 1, .next] ≠ some outs := by
  have hst : ∀ j : Nat, Storable 16 2 (if j = 0 then [5, 6] else [9, 9]) := by
    intro j
    by_cases h : j = 0
    · rw [if_pos h]; exact ⟨by decide +kernel, storable_le [5, 6] 16 (by decide +kernel), by decide, by decide, by decide⟩
    · rw [if_neg h]; exact ⟨by decide +kernel, storable_le [9, 9] 16 (by decide +kernel), by decide, by decide, by decide⟩
  obtain ⟨s, h1, h2⟩ := C127_select_enumerator (fun _ => 16) (fun _ => 2) (fun j => if j = 0 then [5, 6] else [9, 9]) hst (fun _ => false)
  refine ⟨s, h1, fun outs ho => ?_⟩
  have hm := (h2 0 0 _ outs (by decide) (by decide)).1 ho
  cases hm with
  | swap hm =>
    cases hm with
    | held hx hy hq =>
      cases hx; cases hy
      exact absurd hq (by decide +kernel)
    | fresh hx hy hq =>
      cases hx; cases hy
      exact absurd hq (by decide +kernel)

/-- without swaps it is the enumerator of C24 -/
example (ef : EliasFano) (e : EliasFano.SelEnum) : FanoSwap.next ef.l ef.high.bits ef e = EliasFano.SelEnum.next ef e := rfl

end Succinct
