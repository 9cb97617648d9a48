import Verif.Lemmas.BpUnmatched

/-!
# C72: `bp_vector` over sequences that are not balanced

The constructor accepts the sequences none of whose prefixes has more closing than opening parentheses
(`Prefix`), as for a tree whose construction is not finished; its assertions reject the others.
-/
namespace Succinct
open Spec
open BpVector (exc Good)
open RSBitVector (bind_pure_some)

/-- no prefix closes more than it opens, and the excess stays below `2147483584` (so that a 256-bit block
more does not overflow `int32_t`) -/
def Spec.Prefix (l : List Bool) : Prop := ∀ p, p ≤ l.length → 0 ≤ Spec.excess l p ∧ Spec.excess l p < 2147483584

theorem Spec.Prefix.good {l : List Bool} (h : Spec.Prefix l) (hlen : l.length < 2^31) : Good l :=
  ⟨⟨fun p hp => by rw [← spec_excess_eq l p hp]; exact (h p hp).1, fun p hp => by rw [← spec_excess_eq l p hp]; exact (h p hp).2, by omega⟩,
    BpVector.wide_of_lt (by omega)⟩

theorem prev_open_iff (l : List Bool) (p i : Nat) (hi : i ≤ l.length) :
    (p < i ∧ l[p]? = some true ∧ Bal (between l p i)) ↔
      p < i ∧ exc l p = exc l i - 1 ∧ ∀ q, p < q → q ≤ i → exc l i - 1 < exc l q := by
  unfold between
  have hl1 : ((l.drop (p+1)).take (i-(p+1))).length = i-(p+1) := by simp; omega
  constructor
  · rintro ⟨h1, h2, h4⟩
    rw [List.drop_take] at h4
    have hd := Bal.dyck h4
    have hbi := (bitFn_eq_true l p).2 h2
    have hEi : exc l (p+1) = exc l p + 1 := by
      have := excF_succ (bitFn l) p; rw [hbi] at this; simpa [exc] using this
    have hz := hd.zero
    rw [hl1, exc_sub _ _ _ _ (Nat.le_refl _), show p+1+(i-(p+1)) = i by omega] at hz
    refine ⟨h1, by omega, fun q q1 q2 => ?_⟩
    have := hd.nonneg (q-(p+1)) (by omega)
    rw [exc_sub _ _ _ _ (by omega), show p+1+(q-(p+1)) = q by omega] at this
    omega
  · rintro ⟨h1, h2, h3⟩
    have h4 := excF_succ (bitFn l) p
    have h5 := h3 (p+1) (by omega) (by omega)
    have hb : bitFn l p = true := by
      by_contra hc
      rw [if_neg hc] at h4
      simp only [exc] at *; omega
    rw [if_pos hb] at h4
    have hEi : exc l (p+1) = exc l p + 1 := h4
    refine ⟨h1, (bitFn_eq_true l p).1 hb, ?_⟩
    rw [List.drop_take, bal_iff]
    refine ⟨fun q hq => ?_, ?_⟩
    · rw [exc_sub _ _ _ _ (by omega)]
      have := h3 (p+1+q) (by omega) (by omega); omega
    · rw [hl1, exc_sub _ _ _ _ (Nat.le_refl _), show p+1+(i-(p+1)) = i by omega]; omega

/-- **C72**, `find_close`: an answer inside the vector is the matching parenthesis, and if there is a
matching parenthesis it is the answer. -/
theorem C72_find_close (ov : Word → Nat → Word) (l : List Bool) (hints hints0 : Bool) (hl : Prefix l) (hlen : l.length < 2^31) :
    ∃ v, BpVector.build (BitVector.ofRange l) hints hints0 = some v ∧
      ∀ i j, l[i]? = some true → j < l.length → (v.findClose ov i = some j ↔ Matching l i j) := by
  have hg := hl.good hlen
  obtain ⟨v, e, _, hi⟩ := BpVector.build_inv l hints hints0 hg
  refine ⟨v, e, fun i j hb hj => ?_⟩
  have spec : ∀ j, Matching l i j → v.findClose ov i = some j := by
    intro j hm
    obtain ⟨h1, h2, h3, h4, h5⟩ := (matching_iff l i j).1 hm
    exact BpVector.findClose_spec ov hi hg i j h1 h2 h3 h4 h5
  have hbi := (bitFn_eq_true l i).2 hb
  have hil := bitFn_lt l i hbi
  refine ⟨fun hf => ?_, spec j⟩
  by_cases hex : ∃ q, i < q ∧ q ≤ l.length ∧ exc l q ≤ exc l i
  · obtain ⟨j', h1, h2, h3, h4⟩ := first_le i hbi hex
    have hm := (matching_iff l i j').2 ⟨h1, h2, hbi, h3, h4⟩
    have := spec j' hm
    rw [hf] at this
    cases this
    exact hm
  · have := BpVector.findClose_unmatched ov hi hg i j hil (fun q q1 q2 => by
      by_contra hc; exact hex ⟨q, q1, q2, by omega⟩) hf
    omega

/-- **C72**, `find_open` at any position: exactly the nearest opening parenthesis before it that is still
open there. -/
theorem C72_find_open (ov : Word → Nat → Word) (l : List Bool) (hints hints0 : Bool) (hl : Prefix l) (hlen : l.length < 2^31) :
    ∃ v, BpVector.build (BitVector.ofRange l) hints hints0 = some v ∧
      ∀ i p, i < l.length → (v.findOpen ov i = some p ↔ p < i ∧ l[p]? = some true ∧ Bal (between l p i)) := by
  have hg := hl.good hlen
  obtain ⟨v, e, _, hi⟩ := BpVector.build_inv l hints hints0 hg
  refine ⟨v, e, fun i p hil => ?_⟩
  rw [prev_open_iff l p i (by omega)]
  refine ⟨fun hf => ?_, fun ⟨h1, h2, h3⟩ => BpVector.findOpen_spec ov hi hg i p h1 hil h2 h3⟩
  have h0 := hg.nonneg i (by omega)
  by_cases hz : exc l i = 0
  · rw [BpVector.findOpen_none ov hi hg i hil hz] at hf
    simp at hf
  · have hi0 : 0 < i := by
      rcases Nat.eq_zero_or_pos i with h | h
      · subst h; exact absurd (excF_zero _) hz
      · exact h
    obtain ⟨p', h1, _, h3, h4, _⟩ := exists_prev (l := l) i 0 hi0 (by
      have : exc l 0 = 0 := excF_zero _
      omega)
    have := BpVector.findOpen_spec ov hi hg i p' h1 hil h3 h4
    rw [hf] at this
    cases this
    exact ⟨h1, h3, h4⟩

/-- **C72**, `enclose`: exactly the nearest opening parenthesis before it that is still open there; the call
fails for a parenthesis inside no other. -/
theorem C72_enclose (ov : Word → Nat → Word) (l : List Bool) (hints hints0 : Bool) (hl : Prefix l) (hlen : l.length < 2^31) :
    ∃ v, BpVector.build (BitVector.ofRange l) hints hints0 = some v ∧
      ∀ i p, l[i]? = some true → (v.enclose ov i = some p ↔ p < i ∧ l[p]? = some true ∧ Bal (between l p i)) := by
  have hg := hl.good hlen
  obtain ⟨v, e, hv⟩ := C72_find_open ov l hints hints0 hl hlen
  refine ⟨v, e, fun i p hb => ?_⟩
  have hbi := (bitFn_eq_true l i).2 hb
  have hil := bitFn_lt l i hbi
  obtain ⟨v', e', _, hi⟩ := BpVector.build_inv l hints hints0 hg
  rw [e] at e'
  cases e'
  rw [← hv i p hil]
  unfold BpVector.enclose
  rw [BitVector.access_eq hi.rs.rep i hil, bind_pure_some, hbi, assertP_eq _ rfl, bind_pure_some]

/-- **C72**, closing parentheses: `find_open` finds a match for each of them. -/
theorem C72_find_open_close (ov : Word → Nat → Word) (l : List Bool) (hints hints0 : Bool) (hl : Prefix l) (hlen : l.length < 2^31) :
    ∃ v, BpVector.build (BitVector.ofRange l) hints hints0 = some v ∧
      ∀ j, l[j]? = some false → ∃ i, v.findOpen ov j = some i ∧ Matching l i j ∧ v.findClose ov i = some j := by
  have hg := hl.good hlen
  obtain ⟨v, e, hv⟩ := C72_find_open ov l hints hints0 hl hlen
  obtain ⟨v', e', hv'⟩ := C72_find_close ov l hints hints0 hl hlen
  rw [e] at e'
  cases e'
  refine ⟨v, e, fun j hb => ?_⟩
  have hjl : j < l.length := by
    by_contra hc; rw [List.getElem?_eq_none (by omega)] at hb; simp at hb
  have hbj : bitFn l j = false := by
    have := bitFn_getElem? l j hjl; rw [hb] at this; simpa using this.symm
  have hEj : exc l (j+1) = exc l j - 1 := by
    have := excF_succ (bitFn l) j; rw [hbj] at this; simp at this; simp only [exc]; omega
  have h1 := hg.nonneg (j+1) (by omega)
  have hj0 : 0 < j := by
    rcases Nat.eq_zero_or_pos j with h | h
    · subst h
      have : exc l 0 = 0 := excF_zero _
      omega
    · exact h
  obtain ⟨i, h2, _, h3, h4, h5⟩ := exists_prev (l := l) j 0 hj0 (by
    have : exc l 0 = 0 := excF_zero _
    omega)
  have ho := (prev_open_iff l i j (by omega)).2 ⟨h2, h3, h4⟩
  have hm : Matching l i j := ⟨h2, ho.2.1, hb, ho.2.2⟩
  exact ⟨i, (hv j i hjl).2 ho, hm, (hv' i j ho.2.1 hjl).2 hm⟩

/-- the restriction to answers inside the vector is needed: `find_close` of an opening parenthesis that is
never closed may answer a position in the padding of the last word, here `size()`.  (So may the
assertions fail or words behind the vector be read, as for the other opening parenthesis.) -/
theorem C72_padding_false :
    (BpVector.build (BitVector.ofRange [true]) false false).bind (fun v => v.findClose (fun _ _ => 0) 0) = some 1 ∧
    (BpVector.build (BitVector.ofRange (List.replicate 64 true)) false false).bind (fun v => v.findClose (fun _ _ => 0) 3) = none := by
  decide +kernel

/-- a sequence with two parentheses that are not closed -/
def unbalancedBits : List Bool := [true, true, false, true, true, false]

example : Prefix unbalancedBits := by
  intro p hp
  have : p < 7 := by simpa [unbalancedBits] using Nat.lt_succ_of_le hp
  have h : ∀ p, p < 7 → 0 ≤ Spec.excess unbalancedBits p ∧ Spec.excess unbalancedBits p < 2147483584 := by decide +kernel
  exact h p this

example : (BpVector.build (BitVector.ofRange unbalancedBits) false false).bind (fun v => v.findClose (fun _ _ => 0) 4) = some 5 ∧
    (BpVector.build (BitVector.ofRange unbalancedBits) false false).bind (fun v => v.enclose (fun _ _ => 0) 4) = some 3 ∧
    (BpVector.build (BitVector.ofRange unbalancedBits) false false).bind (fun v => v.enclose (fun _ _ => 0) 3) = some 0 ∧
    (BpVector.build (BitVector.ofRange unbalancedBits) false false).bind (fun v => v.enclose (fun _ _ => 0) 0) = none := by
  decide +kernel

end Succinct
