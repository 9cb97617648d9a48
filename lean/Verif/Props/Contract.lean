import Verif.Lemmas.Contract
import Verif.Props.RSBitVector
import Verif.Props.Darray
import Verif.Props.EliasFano
import Verif.Props.Gamma
import Verif.Props.BpVector
import Verif.Props.CartesianTree
import Verif.Props.Util

/-!
# C73: which calls return normally

With assertions enabled, a query returns exactly for the arguments in its domain and a constructor returns
exactly for the inputs it can store.  Outside the domain the run ends in a failing assertion of the source,
possibly in a function called further down (`mappable_vector::operator[]` asserts its bounds,
`mappable_vector.hpp:101-104`).  Where the model stops at a subtraction below zero the source goes on with a
huge number, which the next callee rejects: `num_ones() - 1` for `elias_fano::predecessor1`, passed to
`darray::select` (`darray.hpp:76`); `size() - b - 1` for `cartesian_tree::rmq`, passed to
`rs_bit_vector::select0` (`rs_bit_vector.hpp:116`); `b - a + 1` for `topk`, followed by `rmq(a, b)`
(`cartesian_tree.hpp:110`).

The property does not hold of every call: the theorems ending in `_false` show those that accept arguments
outside their domain.
-/
namespace Succinct
open Spec
open BpVector (exc)
open RSBitVector (bind_pure_some)

theorem isSome_of_eq {α : Type} {o : Option α} {x : α} (h : o = some x) : o.isSome = true := by rw [h]; rfl
theorem not_isSome {α : Type} {o : Option α} (h : o = none) : ¬ o.isSome = true := by rw [h]; simp

/-- two-sided domain statement from the two halves -/
theorem isSome_iff_of {α : Type} {o : Option α} {p : Prop} (h1 : p → ∃ x, o = some x) (h2 : ¬ p → o = none) : o.isSome = true ↔ p := by
  constructor
  · intro h
    by_contra hn
    exact not_isSome (h2 hn) h
  · intro h
    obtain ⟨x, e⟩ := h1 h
    exact isSome_of_eq e

/-! ## queries -/

/-- **C73**, `bit_vector`. -/
theorem C73_bit_vector (l : List Bool) :
    (∀ pos, ((BitVector.ofRange l).access pos).isSome = true ↔ pos < l.length) ∧
    (∀ ov pos len, len ≤ 64 → (((BitVector.ofRange l).getBits ov pos len).isSome = true ↔ pos + len ≤ l.length)) ∧
    (∀ pos, ((BitVector.ofRange l).getWord pos).isSome = true ↔ pos < l.length) ∧
    (∀ b pos, ((BitVector.ofRange l).predecessorB b pos).isSome = true ↔ pos < l.length ∧ ∃ r, r ≤ pos ∧ l[r]? = some b) ∧
    (∀ pos, ((BitVector.ofRange l).successorB true pos).isSome = true ↔ pos < l.length ∧ ∃ r, pos ≤ r ∧ l[r]? = some true) ∧
    (∀ pos, ((BitVector.ofRange l).successorB false pos).isSome = true ↔
      pos < l.length ∧ (l.length % 64 ≠ 0 ∨ ∃ r, pos ≤ r ∧ l[r]? = some false)) := by
  have hr := BitVector.ofRange_rep l
  have hsucc : ∀ b pos, l.length ≤ pos → (BitVector.ofRange l).successorB b pos = none := by
    intro b pos hp
    rw [BitVector.successorB_eq]
    unfold BitVector.successor
    rw [assertP_none (by rw [hr.size]; omega)]; rfl
  refine ⟨fun pos => isSome_iff_of (fun h => ⟨_, BitVector.access_eq hr pos h⟩) (fun h => BitVector.access_none hr pos (by omega)),
    fun ov pos len hlen => isSome_iff_of (fun h => ?_) (fun h => ?_), fun pos => isSome_iff_of (fun h => ?_) (fun h => ?_),
    fun b pos => isSome_iff_of (fun ⟨h1, h2⟩ => ?_) (fun h => ?_), fun pos => isSome_iff_of (fun ⟨h1, h2⟩ => ?_) (fun h => ?_),
    fun pos => isSome_iff_of (fun ⟨h1, h2⟩ => ?_) (fun h => ?_)⟩
  · obtain ⟨x, e, _⟩ := C03_get_bits ov l pos len hlen h
    exact ⟨x, e⟩
  · unfold BitVector.getBits
    rw [assertP_none (by rw [hr.size]; omega)]; rfl
  · obtain ⟨x, e, _⟩ := C04_get_word l pos h
    exact ⟨x, e⟩
  · unfold BitVector.getWord
    rw [assertP_none (by rw [hr.size]; omega)]; rfl
  · obtain ⟨r, r1, r2⟩ := h2
    have hc := (C05_predecessor b l pos h1).2
    cases he : (BitVector.ofRange l).predecessorB b pos with
    | some q => exact ⟨q, rfl⟩
    | none => exact absurd r2 (hc.1 he r r1)
  · by_cases hp : pos < l.length
    · exact (C05_predecessor b l pos hp).2.2 (fun r r1 r2 => h ⟨hp, r, r1, r2⟩)
    · rw [BitVector.predecessorB_eq]
      unfold BitVector.predecessor
      rw [assertP_none (by rw [hr.size]; omega)]; rfl
  · obtain ⟨r, r1, r2⟩ := h2
    have hc := BitVector.successor_cases (!true) hr pos h1
    rw [BitVector.successorB_eq]
    cases he : (BitVector.ofRange l).successor (!true) pos with
    | some q => exact ⟨q, rfl⟩
    | none =>
      have hrl : r < l.length := (List.getElem?_eq_some_iff.1 r2).1
      rw [he] at hc
      have := hc r r1 (by unfold wordsFor; omega)
      rw [(xor_not_eq true l r hrl).2 r2] at this
      cases this
  · by_cases hp : pos < l.length
    · have := C06_successor_absent true l pos hp (fun r r1 r2 => h ⟨hp, r, r1, r2⟩)
      simpa using this
    · exact hsucc true pos (by omega)
  · by_cases hx : ∃ r, pos ≤ r ∧ l[r]? = some false
    · obtain ⟨r, r1, r2⟩ := hx
      have hc := BitVector.successor_cases (!false) hr pos h1
      rw [BitVector.successorB_eq]
      cases he : (BitVector.ofRange l).successor (!false) pos with
      | some q => exact ⟨q, rfl⟩
      | none =>
        have hrl : r < l.length := (List.getElem?_eq_some_iff.1 r2).1
        rw [he] at hc
        have := hc r r1 (by unfold wordsFor; omega)
        rw [(xor_not_eq false l r hrl).2 r2] at this
        cases this
    · rw [C06_successor_absent false l pos h1 (fun r r1 r2 => hx ⟨r, r1, r2⟩), if_pos ⟨rfl, h2.resolve_right hx⟩]
      exact ⟨_, rfl⟩
  · by_cases hp : pos < l.length
    · rw [C06_successor_absent false l pos hp (fun r r1 r2 => h ⟨hp, Or.inr ⟨r, r1, r2⟩⟩), if_neg (fun hc => h ⟨hp, Or.inl hc.2⟩)]
    · exact hsucc false pos (by omega)

example : ((BitVector.ofRange [false, true]).predecessorB true 0).isSome = false ∧ ((BitVector.ofRange [false, true]).getWord 2).isSome = false := by
  decide +kernel

/-- `get_bits` does not check `len ≤ 64`: a field of 65 ones is accepted and answered with 63 ones (on a
machine that reduces shift counts modulo 64, as x86 does) -/
theorem C73_get_bits_false :
    (BitVector.ofRange (List.replicate 70 true)).getBits (fun w n => w <<< (n % 64)) 1 65 = some 0x7fffffffffffffff := by decide +kernel

/-- **C73**, `rs_bit_vector`. -/
theorem C73_rs_bit_vector (l : List Bool) (a b : Bool) :
    ∃ v, RSBitVector.build (BitVector.ofRange l) a b = some v ∧
      (∀ pos, (v.rank pos).isSome = true ↔ pos ≤ l.length) ∧ (∀ pos, (v.rank0 pos).isSome = true ↔ pos ≤ l.length) ∧
      (∀ n, (v.select n).isSome = true ↔ n < l.count true) ∧ (∀ n, (v.select0 n).isSome = true ↔ n < l.count false) := by
  obtain ⟨v, e, _, _, r1, r2⟩ := C14_rank l a b
  obtain ⟨v', e', s1, s2⟩ := C15_select l a b
  obtain ⟨v'', e'', z1, z2⟩ := C16_select0 l a b
  obtain rfl : v = v' := Option.some.inj (e.symm.trans e')
  obtain rfl : v = v'' := Option.some.inj (e.symm.trans e'')
  refine ⟨v, e, fun pos => isSome_iff_of (fun h => ⟨_, (r1 pos h).1⟩) (fun h => r2 pos (by omega)),
    fun pos => isSome_iff_of (fun h => ⟨_, (r1 pos h).2⟩) (fun h => ?_),
    fun n => isSome_iff_of (fun h => (s1 n h).imp fun _ h => h.1) (fun h => s2 n (by omega)),
    fun n => isSome_iff_of (fun h => (z1 n h).imp fun _ h => h.1) (fun h => z2 n (by omega))⟩
  unfold RSBitVector.rank0
  rw [r2 pos (by omega)]; rfl

/-- **C73**, `darray1`, `darray0` and `darray64`. -/
theorem C73_darray (l : List Bool) (ks : List Nat) (hks : ∀ k ∈ ks, k ≤ 64) :
    (∃ d, Darray.build false (BitVector.ofRange l) = some d ∧
      ∀ i, (d.select false (BitVector.ofRange l) i).isSome = true ↔ i < l.count true) ∧
    (∃ d, Darray.build true (BitVector.ofRange l) = some d ∧
      ∀ i, (d.select true (BitVector.ofRange l) i).isSome = true ↔ i < l.count false) ∧
    (∃ b d, (Darray64.new.bind fun b0 => ks.foldlM Darray64.append1 b0) = some b ∧ Darray64.ofBuilder b = some d ∧
      ∀ i, (d.select i).isSome = true ↔ i < ks.length) := by
  obtain ⟨d, e, _, h1, h2⟩ := C18_darray1 l
  obtain ⟨d', e', _, h1', h2'⟩ := C18_darray0 l
  obtain ⟨b, d6, eb, e6, _, _, g1, g2⟩ := C19_darray64 ks hks
  exact ⟨⟨d, e, fun i => isSome_iff_of (fun h => (h1 i h).imp fun _ h => h.1) (fun h => h2 i (by omega))⟩,
    ⟨d', e', fun i => isSome_iff_of (fun h => (h1' i h).imp fun _ h => h.1) (fun h => h2' i (by omega))⟩,
    ⟨b, d6, eb, e6, fun i => isSome_iff_of (fun h => ⟨_, (g1 i h).1⟩) (fun h => g2 i (by omega))⟩⟩

/-- **C73**, `elias_fano` with the rank index.  `predecessor1` needs the values below the universe, see
`C22_universe_false`. -/
theorem C73_elias_fano (n : Word) (m : Nat) (xs : List Word) (h : Storable n m xs) :
    ∃ ef, EliasFano.ofSeq n m xs true = some ef ∧ ∀ ov,
      (∀ k, (ef.select ov k).isSome = true ↔ k < xs.length) ∧
      (∀ pos, (ef.rank ov pos).isSome = true ↔ pos ≤ n) ∧
      (∀ pos, (ef.access ov pos).isSome = true ↔ pos < n) ∧
      (∀ pos, (ef.successor1 ov pos).isSome = true ↔ pos < n ∧ ∃ x ∈ xs, pos ≤ x) ∧
      ((∀ x ∈ xs, x < n) → ∀ pos, (ef.predecessor1 ov pos).isSome = true ↔ pos < n ∧ ∃ x ∈ xs, x ≤ pos) ∧
      (∀ k, (ef.delta ov k).isSome = true ↔ k < xs.length) ∧
      (∀ k, (ef.selectRange ov k).isSome = true ↔ k + 1 < xs.length) := by
  obtain ⟨ef, hb, e, g, r⟩ := EliasFano.ofSeq_good n m xs h true
  obtain ⟨ef', e', hq⟩ := C21_rank_access n m xs h
  obtain rfl : ef = ef' := Option.some.inj (e.symm.trans e')
  replace r := r rfl
  have hones : ef.numOnes = xs.length := g.ones
  refine ⟨ef, e, fun ov => ?_⟩
  obtain ⟨q1, q2, q3, q4, q5⟩ := hq ov
  have hrank : ∀ pos, (∃ q, ef.rank ov pos = some q) ↔ pos ≤ n := by
    intro pos
    constructor
    · rintro ⟨q, hq⟩
      by_contra hn
      rw [q4 pos (by rw [BitVec.lt_def]; rw [BitVec.le_def] at hn; omega)] at hq; cases hq
    · intro hp
      by_cases hpn : pos = n
      · subst hpn; exact ⟨_, q2⟩
      · refine ⟨_, q1 pos ?_⟩
        rw [BitVec.lt_def]; rw [BitVec.le_def] at hp
        have : pos.toNat ≠ n.toNat := fun hh => hpn (BitVec.eq_of_toNat_eq hh)
        omega
  have hrank' : ∀ pos, ¬ pos ≤ n → ef.rank ov pos = none := by
    intro pos hp
    cases he : ef.rank ov pos with
    | none => rfl
    | some q => exact absurd ((hrank pos).1 ⟨q, he⟩) hp
  refine ⟨fun k => isSome_iff_of (fun h => ⟨_, EliasFano.select_eq ov g k h⟩) (fun h => EliasFano.select_none ov g k (by omega)),
    fun pos => isSome_iff_of (hrank pos).2 (hrank' pos),
    fun pos => isSome_iff_of (fun h => ⟨_, q3 pos h⟩) (fun h => q5 pos (by rw [BitVec.lt_def] at h; rw [BitVec.le_def]; omega)),
    fun pos => isSome_iff_of (fun ⟨h1, h2⟩ => ?_) (fun hn => ?_),
    fun hlt pos => isSome_iff_of (fun ⟨h1, h2⟩ => ?_) (fun hn => ?_),
    fun k => isSome_iff_of (fun hk => ?_) (fun hk => ?_),
    fun k => isSome_iff_of (fun hk => ⟨_, EliasFano.selectRange_eq ov g k hk⟩) (fun hk => ?_)⟩
  · obtain ⟨y, e1, _⟩ := EliasFano.successor1_eq ov g r pos h1 h2
    exact ⟨y, e1⟩
  · unfold EliasFano.successor1
    by_cases hp : pos < n
    · rw [q1 pos hp, bind_pure_some, EliasFano.select_none ov g]
      have : xs.countP (fun x => decide (x < pos)) = xs.length := by
        rw [List.countP_eq_length]
        intro x hx
        have : ¬ pos ≤ x := fun hh => hn ⟨hp, x, hx, hh⟩
        rw [decide_eq_true_iff, BitVec.lt_def]; rw [BitVec.le_def] at this; omega
      omega
    · by_cases hpn : pos = n
      · subst hpn
        rw [q2, bind_pure_some, EliasFano.select_none ov g _ (Nat.le_refl _)]
      · rw [hrank' pos (by
          have : pos.toNat ≠ n.toNat := fun hh => hpn (BitVec.eq_of_toNat_eq hh)
          rw [BitVec.lt_def] at hp; rw [BitVec.le_def]; omega)]; rfl
  · obtain ⟨y, e1, _⟩ := EliasFano.predecessor1_eq ov g r hlt pos h1 h2
    exact ⟨y, e1⟩
  · unfold EliasFano.predecessor1
    by_cases hp : pos < n
    · have hp1 : (pos + 1).toNat = pos.toNat + 1 := by
        have := BitVec.lt_def.1 hp
        have := n.isLt
        rw [BitVec.toNat_add, show (1 : Word).toNat = 1 from rfl, Nat.mod_eq_of_lt (by omega)]
      have hnone : ∀ x ∈ xs, ¬ x < pos + 1 := by
        intro x hx hc
        apply hn ⟨hp, x, hx, ?_⟩
        rw [BitVec.lt_def, hp1] at hc; rw [BitVec.le_def]; omega
      have h0 : ef.rank ov (pos + 1) = some 0 := by
        by_cases hpn : pos + 1 = n
        · have : xs = [] := by
            cases xs with
            | nil => rfl
            | cons x t => exact absurd (hpn ▸ hlt x (List.mem_cons_self ..)) (hnone x (List.mem_cons_self ..))
          rw [hpn, q2, this]; rfl
        · rw [q1 (pos + 1) (by
            have : (pos + 1).toNat ≠ n.toNat := fun hh => hpn (BitVec.eq_of_toNat_eq hh)
            rw [BitVec.lt_def] at hp ⊢; omega)]
          congr 1
          rw [List.countP_eq_zero]
          intro x hx
          simpa using hnone x hx
      rw [h0]; rfl
    · by_cases hmax : pos.toNat + 1 < 2^64
      · rw [hrank' (pos + 1) (by
          rw [BitVec.lt_def] at hp
          rw [BitVec.le_def, BitVec.toNat_add, show (1 : Word).toNat = 1 from rfl, Nat.mod_eq_of_lt hmax]; omega)]; rfl
      · have hz : pos + 1 = 0 := by
          apply BitVec.eq_of_toNat_eq
          have := pos.isLt
          rw [BitVec.toNat_add, show (1 : Word).toNat = 1 from rfl, show pos.toNat + 1 = 2^64 by omega]; rfl
        have h0 : ef.rank ov 0 = some 0 := by
          by_cases hpn : (0 : Word) = n
          · have : xs = [] := by
              cases xs with
              | nil => rfl
              | cons x t =>
                have := BitVec.lt_def.1 (hlt x (List.mem_cons_self ..))
                rw [← hpn] at this
                exact absurd this (by show ¬ _ < 0; omega)
            rw [hpn, q2, this]; rfl
          · rw [q1 0 (by
              have : (0 : Word).toNat ≠ n.toNat := fun hh => hpn (BitVec.eq_of_toNat_eq hh)
              rw [BitVec.lt_def]; show 0 < _
              have h00 : (0 : Word).toNat = 0 := rfl
              omega)]
            congr 1
            rw [List.countP_eq_zero]
            intro x hx
            simp
        rw [hz, h0]; rfl
  · cases k with
    | zero => exact ⟨_, EliasFano.delta_zero ov g hk⟩
    | succ k => exact ⟨_, EliasFano.delta_succ ov g k hk⟩
  · unfold EliasFano.delta Darray.select
    rw [assertP_none (by rw [← hones] at hk; exact hk)]; rfl
  · unfold EliasFano.selectRange
    rw [assertP_none (by rw [hones]; exact hk)]; rfl

example : (EliasFano.ofSeq 31 6 exampleSeq true).map (fun ef => ((ef.predecessor1 (fun _ _ => 0) (BitVec.allOnes 64)).isSome,
    (ef.successor1 (fun _ _ => 0) 31).isSome, (ef.successor1 (fun _ _ => 0) 30).isSome)) = some (false, false, true) := by decide +kernel

/-- **C73**: without the rank index the queries that need it fail for every argument -/
theorem C73_elias_fano_no_rank (n : Word) (m : Nat) (xs : List Word) (h : Storable n m xs) :
    ∃ ef, EliasFano.ofSeq n m xs false = some ef ∧ ∀ ov pos,
      ef.rank ov pos = none ∧ ef.access ov pos = none ∧ ef.predecessor1 ov pos = none ∧ ef.successor1 ov pos = none := by
  obtain ⟨ef, hb, e, g, _⟩ := EliasFano.ofSeq_good n m xs h false
  have h0 : ef.d0.positions = 0 := by
    unfold EliasFano.ofSeq at e
    simp only [Option.bind_eq_bind, Option.bind_eq_some_iff] at e
    obtain ⟨_, _, _, _, e⟩ := e
    unfold EliasFano.build at e
    simp only [Option.bind_eq_bind, Option.bind_eq_some_iff, Bool.false_eq_true, if_false] at e
    obtain ⟨_, _, _, _, e⟩ := e
    obtain ⟨_, e0, _, _, e⟩ := e
    cases e
    cases e0
    rfl
  have hrk : ∀ ov pos, ef.rank ov pos = none := by
    intro ov pos
    unfold EliasFano.rank
    rw [assertP_none (p := ef.d0.positions ≠ 0) (by rw [h0]; simp)]
    cases assertP (pos ≤ ef.size) <;> rfl
  refine ⟨ef, e, fun ov pos => ⟨hrk ov pos, ?_, ?_, ?_⟩⟩
  · unfold EliasFano.access
    rw [assertP_none (p := ef.d0.positions ≠ 0) (by rw [h0]; simp)]
    cases assertP (pos < ef.size) <;> rfl
  · unfold EliasFano.predecessor1; rw [hrk]; rfl
  · unfold EliasFano.successor1; rw [hrk]; rfl

theorem unary_last (ks : List Nat) (h : 0 < ks.length) : onePos ks (ks.length - 1) + 1 = (unary ks).length := by
  unfold onePos
  rw [show ks.length - 1 + 1 = ks.length by omega, List.take_length, unary_length]
  omega

theorem gamma_get_none {v : GammaVec} {c : Word} {hlen : Word → Nat} {xs : List Word} (h : v.Good c hlen xs) :
    v.high.bits.getWord (onePos (0 :: xs.map hlen) xs.length + 1) = none := by
  have := unary_last (0 :: xs.map hlen) (by simp)
  rw [GammaVec.Good.len, Nat.add_sub_cancel] at this
  unfold BitVector.getWord
  rw [assertP_none (by rw [h.bits.size]; omega)]; rfl

/-- **C73**, `operator[]` of the compressed containers. -/
theorem C73_lists (v : List Word) (w : List Nat) (ov : Word → Nat → Word) :
    (∀ t, v.length ≤ 2^62 → EFList.build v = some t → ∀ i, (t.get ov i).isSome = true ↔ i < v.length) ∧
    (∀ t, v.length < 2^57 → EFCompressedList.build v = some t → ∀ i, (t.get ov i).isSome = true ↔ i < v.length) ∧
    (∀ t, GammaVector.build v = some t → ∀ i, (GammaVector.get ov t i).isSome = true ↔ i < v.length) ∧
    (∀ t, GammaBitVector.build v = some t → ∀ i, (GammaBitVector.get ov t i).isSome = true ↔ i < v.length) ∧
    (∀ t, NibbleVector.build w = some t → ∀ i, (NibbleVector.get t i).isSome = true ↔ i < w.length) := by
  refine ⟨fun t hl e i => ?_, fun t hl e i => ?_, fun t e i => ?_, fun t e i => ?_, fun t e i => ?_⟩
  · obtain ⟨t', hb, e', g⟩ := EFList.build_good v (EFList.build_some e) hl
    rw [e] at e'; cases e'
    refine isSome_iff_of (fun h => ⟨_, EFList.get_eq ov v t hb _ g i h⟩) (fun h => ?_)
    unfold EFList.get EliasFano.delta Darray.select
    rw [assertP_none (by rw [g.ones, EFList.psums_length]; exact h)]; rfl
  · have hv := EFCompressedList.build_some e
    obtain ⟨t', hb, n, e', g, r⟩ := EFCompressedList.build_good v hv hl
    rw [e] at e'; cases e'
    refine isSome_iff_of (fun h => ⟨_, EFCompressedList.get_eq ov v hv hl t n hb g r i h⟩) (fun h => ?_)
    unfold EFCompressedList.get EliasFano.selectRange EliasFano.numOnes
    rw [assertP_none (by rw [g.ones, List.length_cons, EFCompressedList.offs_length]; omega)]; rfl
  · obtain ⟨t', e', g⟩ := GammaVector.build_good v (GammaVector.build_some e)
    rw [e] at e'; cases e'
    refine isSome_iff_of (fun h => ⟨_, GammaVector.get_eq ov g i h⟩) (fun h => ?_)
    unfold GammaVector.get
    by_cases hi : i = v.length
    · subst hi
      rw [g.sel _ (Nat.le_refl _), bind_pure_some]
      unfold GammaVector.retrieve
      rw [gamma_get_none g]
      cases t.high.bits.access (onePos (0 :: v.map (glen 1)) v.length) with
      | none => rfl
      | some b => cases b <;> rfl
    · unfold Darray64.select
      rw [assertP_none (by rw [g.ones]; omega)]; rfl
  · obtain ⟨t', e', g, hp⟩ := GammaBitVector.build_good v (GammaBitVector.build_some e)
    rw [e] at e'; cases e'
    refine isSome_iff_of (fun h => ⟨_, GammaBitVector.get_eq ov g hp i h⟩) (fun h => ?_)
    unfold GammaBitVector.get
    by_cases hi : i = v.length
    · subst hi
      rw [g.sel _ (Nat.le_refl _), bind_pure_some]
      unfold GammaBitVector.retrieve
      rw [gamma_get_none g]
      cases t.high.bits.access _ with
      | none => rfl
      | some b => cases b <;> rfl
    · unfold Darray64.select
      rw [assertP_none (by rw [g.ones]; omega)]; rfl
  · obtain ⟨t', e', _, h1, h2⟩ := C45_nibble_vector w (NibbleVector.build_some e)
    rw [e] at e'; cases e'
    exact isSome_iff_of (fun h => (h1 i h).imp fun _ h => h.1) (fun h => h2 i (by omega))

example : (GammaVector.build [5, 0, 7]).map (fun t => (GammaVector.get (fun _ _ => 0) t 2, GammaVector.get (fun _ _ => 0) t 3)) =
    some (some 7, none) := by decide +kernel

/-! ## constructors -/

/-- **C73**, constructors: accepted is exactly what can be stored. -/
theorem C73_constructors (n : Word) (m : Nat) (v : List Word) (w : List Nat) (l : List Bool) (wr a b : Bool) :
    (m ≤ 2^62 → (m = 0 → n.toNat + 2 < 2^64) →
      ((EliasFano.ofSeq n m v wr).isSome = true ↔ v.Pairwise (· ≤ ·) ∧ (∀ x ∈ v, x ≤ n) ∧ v.length ≤ m)) ∧
    (v.length ≤ 2^62 → ((EFList.build v).isSome = true ↔ (v.map BitVec.toNat).sum < 2^64 - 1)) ∧
    (v.length < 2^57 → ((EFCompressedList.build v).isSome = true ↔ ∀ x ∈ v, x.toNat < 2^64 - 1)) ∧
    ((GammaVector.build v).isSome = true ↔ ∀ x ∈ v, x.toNat < 2^64 - 1) ∧
    ((GammaBitVector.build v).isSome = true ↔ ∀ x ∈ v, x.toNat < 2^64 - 2) ∧
    ((NibbleVector.build w).isSome = true ↔ ∀ x ∈ w, x < 16) ∧
    (l.length < 2147483584 →
      ((BpVector.build (BitVector.ofRange l) a b).isSome = true ↔ ∀ p, p ≤ l.length → 0 ≤ Spec.excess l p)) := by
  have hmax : (∀ x ∈ v, x.toNat < 2^64 - 1) ↔ ∀ x ∈ v, x ≠ BitVec.allOnes 64 := by
    refine forall₂_congr fun x _ => ?_
    have := x.isLt
    constructor
    · intro h he; rw [he, BitVec.toNat_allOnes] at h; omega
    · intro h
      have : x.toNat ≠ 2^64 - 1 := fun he => h (BitVec.eq_of_toNat_eq (by rw [he, BitVec.toNat_allOnes]))
      omega
  simp only [hmax]
  refine ⟨fun h1 h2 => ⟨fun h => ?_, fun ⟨g1, g2, g3⟩ => ?_⟩, fun hl => ⟨fun h => ?_, fun h => ?_⟩, fun hl => ⟨fun h => ?_, fun h => ?_⟩,
    ⟨fun h => ?_, fun h => ?_⟩, ⟨fun h => ?_, fun h => ?_⟩, ⟨fun h => ?_, fun h => ?_⟩, fun hl => ⟨fun h => ?_, fun h => ?_⟩⟩
  · obtain ⟨x, e⟩ := Option.isSome_iff_exists.1 h
    exact EliasFano.ofSeq_some e
  · obtain ⟨ef, _, e, _⟩ := EliasFano.ofSeq_good n m v ⟨g1, g2, g3, h1, h2⟩ wr
    exact isSome_of_eq e
  · obtain ⟨x, e⟩ := Option.isSome_iff_exists.1 h
    exact EFList.build_some e
  · obtain ⟨_, _, e, _⟩ := EFList.build_good v h hl
    exact isSome_of_eq e
  · obtain ⟨x, e⟩ := Option.isSome_iff_exists.1 h
    exact EFCompressedList.build_some e
  · obtain ⟨_, _, _, e, _⟩ := EFCompressedList.build_good v h hl
    exact isSome_of_eq e
  · obtain ⟨x, e⟩ := Option.isSome_iff_exists.1 h
    exact GammaVector.build_some e
  · obtain ⟨_, e, _⟩ := GammaVector.build_good v h
    exact isSome_of_eq e
  · obtain ⟨x, e⟩ := Option.isSome_iff_exists.1 h
    exact GammaBitVector.build_some e
  · obtain ⟨_, e, _⟩ := GammaBitVector.build_good v h
    exact isSome_of_eq e
  · obtain ⟨x, e⟩ := Option.isSome_iff_exists.1 h
    exact NibbleVector.build_some e
  · obtain ⟨_, e, _⟩ := NibbleVector.build_spec w h
    exact isSome_of_eq e
  · obtain ⟨x, e⟩ := Option.isSome_iff_exists.1 h
    intro p hp
    rw [spec_excess_eq l p hp]
    exact BpVector.build_some hl e p hp
  · obtain ⟨_, e⟩ := C34_build l a b hl h
    exact isSome_of_eq e

/- a descent, a sum of `2^64`, a closing parenthesis too many -/
example : (EliasFano.ofSeq 30 6 [3, 2] true).isSome = false ∧ (EFList.build [BitVec.allOnes 64, 1]).isSome = false ∧
    (BpVector.build (BitVector.ofRange [true, false, false]) true true).isSome = false := by decide +kernel

/-! ## parentheses and range minima -/

/-- **C73**, `bp_vector`: `find_close` and `enclose` reject closing parentheses and positions outside the
sequence, `find_open` rejects position 0, `excess` rejects positions outside, `excess_rmq` rejects inverted
ranges, ranges starting outside and ranges ending beyond the last word. -/
theorem C73_bp_vector (ov : Word → Nat → Word) (l : List Bool) (hints hints0 : Bool) (v : BpVector)
    (hv : BpVector.build (BitVector.ofRange l) hints hints0 = some v) :
    (∀ i, (v.findClose ov i).isSome = true → l[i]? = some true) ∧
    (∀ i, (v.enclose ov i).isSome = true → l[i]? = some true ∧ i ≠ 0) ∧
    v.findOpen ov 0 = none ∧
    (∀ i, (v.excess i).isSome = true ↔ i ≤ l.length) ∧
    (∀ a b, (v.excessRmq a b).isSome = true → a ≤ b ∧ a ≤ l.length ∧ b ≤ (l.length + 63) / 64 * 64) := by
  obtain ⟨rs, e, _, hi⟩ := RSBitVector.build_inv l hints hints0
  rw [BpVector.build_rs hv] at e
  cases e
  have hacc : ∀ i, (v.rs.bv.access i).isSome = true → v.rs.bv.access i = l[i]? := by
    intro i hs
    by_cases hil : i < l.length
    · rw [BitVector.access_eq hi.rep i hil, bitFn_getElem? l i hil]
    · exact absurd hs (not_isSome (BitVector.access_none hi.rep i (by omega)))
  have hex : ∀ i, (v.excess i).isSome = true ↔ i ≤ l.length := by
    intro i
    refine isSome_iff_of (fun h => ?_) (fun h => ?_)
    · unfold BpVector.excess; rw [RSBitVector.rank_eq hi i h]; exact ⟨_, rfl⟩
    · unfold BpVector.excess RSBitVector.rank
      rw [assertP_none (by rw [hi.rep.size]; exact h)]; rfl
  have h0 : v.findOpen ov 0 = none := by
    unfold BpVector.findOpen
    rw [assertP_none (by simp)]; rfl
  have hopen : ∀ {i} {b : Bool} {u : Unit}, v.rs.bv.access i = some b → assertP (b = true) = some u → l[i]? = some true := by
    intro i b u h1 h2
    have := assertP_some h2
    subst this
    rw [← hacc i (isSome_of_eq h1), h1]
  refine ⟨fun i h => ?_, fun i h => ?_, h0, hex, fun a b h => ?_⟩
  · obtain ⟨x, e⟩ := Option.isSome_iff_exists.1 h
    unfold BpVector.findClose at e
    rw [Option.bind_eq_bind, Option.bind_eq_some_iff] at e
    obtain ⟨b, h1, e⟩ := e
    rw [Option.bind_eq_bind, Option.bind_eq_some_iff] at e
    obtain ⟨_, h2, _⟩ := e
    exact hopen h1 h2
  · obtain ⟨x, e⟩ := Option.isSome_iff_exists.1 h
    unfold BpVector.enclose at e
    simp only [Option.bind_eq_bind, Option.bind_eq_some_iff] at e
    obtain ⟨b, h1, _, h2, h3⟩ := e
    refine ⟨hopen h1 h2, ?_⟩
    rintro rfl
    rw [h0] at h3; cases h3
  · obtain ⟨x, e⟩ := Option.isSome_iff_exists.1 h
    unfold BpVector.excessRmq at e
    rw [Option.bind_eq_bind, Option.bind_eq_some_iff] at e
    obtain ⟨_, h1, e⟩ := e
    have h1 := assertP_some h1
    rw [Option.bind_eq_bind, Option.bind_eq_some_iff] at e
    obtain ⟨cur, h2, e⟩ := e
    have h2 := (hex a).1 (isSome_of_eq h2)
    refine ⟨h1, h2, ?_⟩
    by_cases hab : a = b
    · omega
    · rw [if_neg hab] at e
      simp only [] at e
      rw [Option.bind_eq_bind, Option.bind_eq_some_iff] at e
      obtain ⟨w, h3, e⟩ := e
      rw [Option.bind_eq_bind, Option.bind_eq_some_iff] at e
      obtain ⟨s, h4, e⟩ := e
      have hlen : v.rs.bv.bits.length = (l.length + 63)/64 := hi.rep.len
      have hrd : ∀ {i : Nat} {w : Word}, rd v.rs.bv.bits i = some w → i < (l.length + 63)/64 := by
        intro i w h
        have := (List.getElem?_eq_some_iff.1 h).1
        omega
      by_cases hw : a / 64 = (b - 1) / 64
      · have := hrd h3
        omega
      · rw [if_neg hw] at e
        simp only [Option.bind_eq_bind, Option.bind_eq_some_iff] at e
        obtain ⟨_, _, _, _, w', h5, _⟩ := e
        have := hrd h5
        omega

/-- `excess_rmq` accepts a right end beyond the sequence if it lies in the last word, and then answers with a
position beyond the sequence (here 5, of excess -3, for `()`) -/
theorem C73_excess_rmq_false :
    (BpVector.build (BitVector.ofRange [true, false]) true true).bind (fun v => v.excessRmq 0 5) = some (5, -3) := by decide +kernel

theorem rmqDistinct_none {t : CartesianTree} {n : Nat} (hs : t.size = some n) (a b : Nat) (hb : n ≤ b) : t.rmqDistinct a b = none := by
  unfold CartesianTree.rmqDistinct
  rw [hs, bind_pure_some]
  by_cases h : b ≤ n
  · rw [subU_eq _ _ h, bind_pure_some]
    have : subU (n - b) 1 = none := by unfold subU; rw [if_neg (by omega)]
    rw [this]; rfl
  · have : subU n b = none := by unfold subU; rw [if_neg h]
    rw [this]; rfl

theorem topk_tree {α : Type} (o : Ops α) (v : List α) (hv : v.length < 2^30 - 1) (t : TopK α) (h : TopK.build o v = some t) :
    t.v = v ∧ t.tree.size = some v.length := by
  unfold TopK.build at h
  obtain ⟨t1, _, e1, _, _, _, hs⟩ := C37_size (fun x y => o.lt y x) v hv
  rw [e1, bind_pure_some] at h
  cases h
  exact ⟨rfl, hs⟩

/-- **C73**, `cartesian_tree::rmq` and `topk_vector`. -/
theorem C73_range_queries {α : Type} (o : Ops α) (ho : TotalOrder o.lt o.eq) (h : HeapOps (QElem α)) (hh : h.Valid (viComp o))
    (v : List α) (hv : v.length < 2^30 - 1) :
    (∃ t, CartesianTree.build o.lt v = some t ∧ ∀ a b, a ≠ b → ((t.rmq a b).isSome = true ↔ a < b ∧ b < v.length)) ∧
    (∃ t, TopK.build o v = some t ∧ (∀ a b k, (t.topk h a b k).isSome = true ↔ a ≤ b ∧ b < v.length) ∧
      ∀ a b e, (t.getEnumerator a b e).isSome = true ↔ a ≤ b ∧ b < v.length) := by
  obtain ⟨t, e, hr⟩ := C36_rmq o.lt ho.weak v hv
  obtain ⟨t1, _, e1, _, _, _, hs⟩ := C37_size o.lt v hv
  obtain rfl : t = t1 := Option.some.inj (e.symm.trans e1)
  obtain ⟨tk, ek, hk⟩ := C38_topk o ho h hh v hv
  obtain ⟨tk', ek', hk'⟩ := C39_enumerator o ho h hh v hv
  obtain rfl : tk = tk' := Option.some.inj (ek.symm.trans ek')
  have hset : ∀ a b en, ¬ (a ≤ b ∧ b < v.length) → tk.getEnumerator a b en = none := by
    intro a b en hn
    unfold TopK.getEnumerator TopKEnum.set
    by_cases hab : a ≤ b
    · obtain ⟨hvec, hsz⟩ := topk_tree o v hv tk ek
      have hel : TopKEnum.elemFor tk a b = none := by
        unfold TopKEnum.elemFor
        by_cases he : a = b
        · unfold CartesianTree.rmq
          rw [assertP_eq _ hab, bind_pure_some, if_pos he, hvec]
          unfold rd
          rw [show (pure a : Option Nat) = some a from rfl, bind_pure_some, List.getElem?_eq_none (by omega)]; rfl
        · unfold CartesianTree.rmq
          rw [assertP_eq _ hab, bind_pure_some, if_neg he, rmqDistinct_none hsz a b (by omega)]; rfl
      rw [assertP_eq _ hab, bind_pure_some, hel]; rfl
    · rw [assertP_none hab]; rfl
  refine ⟨⟨t, e, fun a b hab => isSome_iff_of (fun ⟨h1, h2⟩ => (hr a b (by omega) h2).imp fun _ h => h.1) (fun hn => ?_)⟩,
    ⟨tk, ek, fun a b k => isSome_iff_of (fun ⟨h1, h2⟩ => ?_) (fun hn => ?_), fun a b en => isSome_iff_of (fun ⟨h1, h2⟩ => ?_) (hset a b en)⟩⟩
  · unfold CartesianTree.rmq
    by_cases h1 : a ≤ b
    · rw [assertP_eq _ h1, bind_pure_some, if_neg hab, rmqDistinct_none hs a b (by omega)]
    · rw [assertP_none h1]; rfl
  · obtain ⟨s, _, _, h3⟩ := hk a b k h1 h2
    exact ⟨_, h3⟩
  · unfold TopK.topk
    rw [hset a b _ hn]
    cases subU b a <;> rfl
  · obtain ⟨en', _, h3, _⟩ := hk' a b en h1 h2
    exact ⟨en', h3⟩

/-- `rmq(a, a)` is `a` also outside the tree -/
theorem C73_rmq_false : (CartesianTree.build (fun a b : Nat => decide (a < b)) [3, 1, 2]).bind (fun t => t.rmq 7 7) = some 7 := by
  decide +kernel

/-! ## the builder -/

/-- `bit_vector_builder::set` does not check its position: position 5 of a builder of three bits is accepted,
and the bit set there is counted -/
theorem C73_builder_set_false :
    ((Builder.new 3 false).bind (fun b => b.set 5 true)).isSome = true ∧
    ((((Builder.new 3 false).bind (fun b => b.set 5 true)).bind BitVector.ofBuilder).bind (fun bv => RSBitVector.build bv false false)).bind
      RSBitVector.numOnes = some 1 := by decide +kernel

end Succinct
