import Verif.Lemmas.ReleaseLoop
import Verif.Props.MachineBp
import Verif.Props.Unbalanced

/-!
# C86: `find_close`, `find_open` and `enclose` with assertions compiled out

`Verif/Model/Release.lean` runs the searches of `bp_vector` in 64-bit arithmetic without the assertions.  The calls that answer with
assertions give the same answers without them.  Calls that the assertions reject are another matter: `find_open` and `enclose` of a parenthesis
inside no pair read outside the arrays or run for ever (`C86_top_level`; by the C++ standard an endless loop without side effects is
itself undefined behaviour, so that a compiler may also do something else there), and `find_close` of a parenthesis that is not closed may answer with
a number that is no position (`C86_unmatched_false`).
-/
namespace Succinct
open Spec
open Machine (W)

/-- the call ends with `r`, if it is given enough time -/
def Returns {α : Type} (f : Nat → Outcome α) (r : α) : Prop := ∃ n, ∀ fuel, n ≤ fuel → f fuel = .done r

/-- however long one waits, the call has not come to an end -/
def RunsForEver {α : Type} (f : Nat → Outcome α) : Prop := ∀ fuel, f fuel = .running

/-- **C86**: what the code with assertions answers, the code without them answers too.  For every content of the members, whether made by
a constructor or mapped from a file. -/
theorem C86_same_answers (ov : Word → Nat → Word) (v : Machine.BpVector) (pos r : Word) :
    (v.findClose ov pos = some r → Returns (fun fuel => Release.findClose ov v fuel pos) r) ∧
    (v.findOpen ov pos = some r → Returns (fun fuel => Release.findOpen ov v fuel pos) r) ∧
    (v.enclose ov pos = some r → Returns (fun fuel => Release.enclose ov v fuel pos) r) :=
  ⟨fun h => ⟨_, fun _ hf => Release.findClose_of ov hf h⟩, fun h => ⟨_, fun _ hf => Release.findOpen_of ov hf h⟩,
    fun h => ⟨_, fun _ hf => Release.enclose_of ov hf h⟩⟩

/-- **C86**: on a balanced sequence the code without assertions finds the matching and the enclosing parentheses. -/
theorem C86_balanced (ov : Word → Nat → Word) (p : Prog) (l : List Bool) (h : p.spec = some l) (hr : p.ReserveAligned) (hl : Bal l)
    (hlen : l.length < 2^31) (hints hints0 : Bool) :
    ∃ bv v, Machine.history p = some bv ∧ Machine.BpVector.build bv hints hints0 = some v ∧
      (∀ i : Word, l[i.toNat]? = some true → ∃ j, Returns (fun fuel => Release.findClose ov v fuel i) j ∧ Matching l i.toNat j.toNat) ∧
      (∀ j : Word, l[j.toNat]? = some false → ∃ i, Returns (fun fuel => Release.findOpen ov v fuel j) i ∧ Matching l i.toNat j.toNat) ∧
      (∀ i j : Word, Matching l i.toNat j.toNat → (∃ p q, Matching l p q ∧ p < i.toNat ∧ i.toNat < q) →
        ∃ p, Returns (fun fuel => Release.enclose ov v fuel i) p ∧ IsEnclose l i.toNat j.toNat p.toNat) := by
  obtain ⟨bv, v, h1, h2, ha⟩ := C85_bp_vector ov p l h hr hl hlen hints hints0
  refine ⟨bv, v, h1, h2, fun i hi => ?_, fun j hj => ?_, fun i j hm hin => ?_⟩
  · obtain ⟨j, e, hj⟩ := ha.close i hi
    exact ⟨j, (C86_same_answers ov v i j).1 e, hj⟩
  · obtain ⟨i, e, hi⟩ := ha.opened j hj
    exact ⟨i, (C86_same_answers ov v j i).2.1 e, hi⟩
  · obtain ⟨p, e, hp⟩ := ha.enclose i j hm hin
    exact ⟨p, (C86_same_answers ov v i p).2.2 e, hp⟩

/-- **C86**: `find_open` and `enclose` at a position that lies inside no pair, such as the root of a tree.  Within the first 256 bits
they read outside the arrays, from there on they run for ever. -/
theorem C86_top_level (ov : Word → Nat → Word) (l : List Bool) (hints hints0 : Bool) (hl : Prefix l) (hlen : l.length < 2^31) :
    ∃ v, Machine.BpVector.build (Machine.BitVector.enc (BitVector.ofRange l)) hints hints0 = some v ∧
      ∀ pos : Word, pos.toNat < l.length → (∀ p, p < pos.toNat → l[p]? = some true → ¬ Bal (between l p pos.toNat)) →
        (pos.toNat < 256 → ∀ fuel, Release.findOpen ov v fuel pos = .undefined ∧ Release.enclose ov v fuel pos = .undefined) ∧
        (256 ≤ pos.toNat → RunsForEver (fun fuel => Release.findOpen ov v fuel pos) ∧ RunsForEver (fun fuel => Release.enclose ov v fuel pos)) := by
  have hg := hl.good hlen
  obtain ⟨w, e, hbv, hi⟩ := BpVector.build_inv l hints hints0 hg
  obtain ⟨e', hs⟩ := Machine.BpVector.build_sim (by omega) hints hints0 e
  have hv := BpVector.build_nonneg e (by simpa [BitVector.ofRange_rep l |>.size] using hlen)
  refine ⟨_, e', fun pos hpl hno => ?_⟩
  have hz : BpVector.exc l pos.toNat = 0 := by
    by_contra hz
    have h0 := hg.nonneg pos.toNat (by omega)
    have hi0 : 0 < pos.toNat := by
      rcases Nat.eq_zero_or_pos pos.toNat with h | h
      · rw [h] at hz; exact absurd (excF_zero _) hz
      · exact h
    obtain ⟨p', h1, _, h3, h4, _⟩ := exists_prev (l := l) pos.toNat 0 hi0 (by
      have : BpVector.exc l 0 = 0 := excF_zero _
      omega)
    have := (prev_open_iff l p' pos.toNat (by omega)).2 ⟨h1, h3, h4⟩
    exact hno p' this.1 this.2.1 this.2.2
  have hW : W pos.toNat = pos := Machine.W_of pos
  constructor
  · intro h256 fuel
    have := Release.findOpen_undefined ov hi hg hs pos.toNat hpl hz h256 fuel
    rw [hW] at this
    exact ⟨this, this⟩
  · intro h256
    have := fun fuel => Release.findOpen_running ov hi hg hs hv pos.toNat hpl hz h256 fuel
    rw [hW] at this
    exact ⟨this, this⟩

/-- the bits of three hundred opening parentheses, none of which is closed -/
def manyOpen : List Bool := List.replicate 300 true

theorem manyOpen_prefix : Prefix manyOpen := by
  intro p hp
  have h1 : p < 301 := by
    have : manyOpen.length = 300 := by decide +kernel
    omega
  have h : ∀ p, p < 301 → 0 ≤ Spec.excess manyOpen p ∧ Spec.excess manyOpen p < 2147483584 := by decide +kernel
  exact h p h1

/-- **C86**: `find_close` of a parenthesis that is not closed returns `2^64 - 1`; with assertions it is rejected. -/
theorem C86_unmatched_false : Prefix manyOpen ∧
    ∃ v, Machine.BpVector.build (Machine.BitVector.enc (BitVector.ofRange manyOpen)) true true = some v ∧
      Returns (fun fuel => Release.findClose (fun _ _ => 0) v fuel 0) 0xffffffffffffffff#64 ∧ v.findClose (fun _ _ => 0) 0 = none := by
  refine ⟨manyOpen_prefix, ?_⟩
  have h : (Machine.BpVector.build (Machine.BitVector.enc (BitVector.ofRange manyOpen)) true true).bind
      (fun v => some (Release.findClose (fun _ _ => 0) v 5 0, v.findClose (fun _ _ => 0) 0)) = some (.done 0xffffffffffffffff#64, none) := by decide +kernel
  rw [Option.bind_eq_some_iff] at h
  obtain ⟨v, e, h⟩ := h
  simp only [Option.some.injEq, Prod.mk.injEq] at h
  exact ⟨v, e, ⟨5, fun fuel hf => Release.findClose_mono _ hf h.1⟩, h.2⟩

/-! ## cases that meet the hypotheses -/

/-- a hundred and fifty pairs side by side -/
def manyPairs : List Bool := (List.replicate 150 [true, false]).flatten

/-- `C86_top_level`: the opening parentheses at 2 and at 256 are inside no pair -/
example : Prefix manyPairs ∧ manyPairs.length = 300 ∧ ∀ pos ∈ [2, 256], manyPairs[pos]? = some true ∧
    ∀ p, p < pos → manyPairs[p]? = some true → ¬ Bal (between manyPairs p pos) := by
  have hP : Prefix manyPairs := by
    intro p hp
    have h1 : p < 301 := by
      have : manyPairs.length = 300 := by decide +kernel
      omega
    have h : ∀ p, p < 301 → 0 ≤ Spec.excess manyPairs p ∧ Spec.excess manyPairs p < 2147483584 := by decide +kernel
    exact h p h1
  have hlen : manyPairs.length = 300 := by decide +kernel
  refine ⟨hP, hlen, fun pos hpos => ?_⟩
  simp only [List.mem_cons, List.not_mem_nil, or_false] at hpos
  have hz : pos ≤ 300 ∧ Spec.excess manyPairs pos = 0 ∧ manyPairs[pos]? = some true := by
    rcases hpos with h | h <;> subst h <;> decide +kernel
  refine ⟨hz.2.2, fun p hp hb hbal => ?_⟩
  have h1 := (prev_open_iff manyPairs p pos (by omega)).1 ⟨hp, hb, hbal⟩
  have h2 := hP p (by omega)
  rw [spec_excess_eq manyPairs p (by omega)] at h2
  have h3 := hz.2.1
  rw [spec_excess_eq manyPairs pos (by omega)] at h3
  omega

example : (Machine.BpVector.build (Machine.BitVector.enc (BitVector.ofRange manyPairs)) true true).bind
    (fun v => some (Release.enclose (fun _ _ => 0) v 40 2, Release.enclose (fun _ _ => 0) v 40 256, Release.findOpen (fun _ _ => 0) v 40 257,
      Release.findClose (fun _ _ => 0) v 40 256)) = some (.undefined, .running, .done 256, .done 257) := by decide +kernel

/-- three hundred pairs inside each other -/
def deep300 : List Bool := List.replicate 300 true ++ List.replicate 300 false

/-- `C86_same_answers`, `C86_balanced`: a search that goes through the tree -/
example : (Machine.BpVector.build (Machine.BitVector.enc (BitVector.ofRange deep300)) true true).bind
    (fun v => some (v.findClose (fun _ _ => 0) 3, Release.findClose (fun _ _ => 0) v 40 3, Release.findOpen (fun _ _ => 0) v 40 596,
      Release.enclose (fun _ _ => 0) v 40 299)) = some (some 596, .done 596, .done 3, .done 298) := by decide +kernel

end Succinct
