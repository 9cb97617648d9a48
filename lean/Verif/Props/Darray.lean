import Verif.Lemmas.Darray64

/-! # C18, C19: `darray1`, `darray0`, `darray64` -/
namespace Succinct
open Spec

/-- **C18** (ones): `darray1` over any bit vector counts the ones and selects each of them; the index
assertion fails for all other arguments. -/
theorem C18_darray1 (l : List Bool) :
    ∃ d, Darray.build false (BitVector.ofRange l) = some d ∧ d.positions = l.count true ∧
      (∀ i, i < l.count true → ∃ p, d.select false (BitVector.ofRange l) i = some p ∧ IsSelect1 l i p) ∧
      (∀ i, l.count true ≤ i → d.select false (BitVector.ofRange l) i = none) := by
  have hrep := BitVector.ofRange_rep l
  have hs : (BitVector.ofRange l).size ≤ 64 * (BitVector.ofRange l).bits.length := by
    rw [hrep.size, hrep.len]; omega
  have hg : Darray.gbit false (BitVector.ofRange l).bits = bitFn l := by
    funext p; unfold Darray.gbit; rw [hrep.repr.bit, Bool.xor_false]
  obtain ⟨d, e, h1, h2⟩ := Darray.build_spec false (BitVector.ofRange l) hs
  rw [hg, hrep.size, ← count_eq_cnt] at h1
  refine ⟨d, e, h1, ?_, ?_⟩
  · intro i hi
    rw [count_eq_cnt] at hi
    obtain ⟨p, p1, p2, p3⟩ := sel_exists hi
    refine ⟨p, ?_, (isSelect1_iff l i p).2 ⟨p2, p3⟩⟩
    apply Darray.select_spec false _ hs d (by rw [hg, hrep.size, h1, count_eq_cnt]) h2
    · rw [hrep.size]; exact p1
    · rw [hg]; exact p2
    · rw [hg]; exact p3
  · intro i hi
    unfold Darray.select assertP
    rw [if_neg (by omega)]; rfl

/-- **C18** (zeros): `darray0`, which works on the complemented words and has to ignore the
complemented padding. -/
theorem C18_darray0 (l : List Bool) :
    ∃ d, Darray.build true (BitVector.ofRange l) = some d ∧ d.positions = l.count false ∧
      (∀ i, i < l.count false → ∃ p, d.select true (BitVector.ofRange l) i = some p ∧ IsSelect0 l i p) ∧
      (∀ i, l.count false ≤ i → d.select true (BitVector.ofRange l) i = none) := by
  have hrep := BitVector.ofRange_rep l
  have hs : (BitVector.ofRange l).size ≤ 64 * (BitVector.ofRange l).bits.length := by
    rw [hrep.size, hrep.len]; omega
  have hg : Darray.gbit true (BitVector.ofRange l).bits = fun p => !bitFn l p := by
    funext p; unfold Darray.gbit; rw [hrep.repr.bit, Bool.xor_true]
  have hc : l.count false = cnt (fun p => !bitFn l p) l.length := by
    have := count_add_count l
    rw [cnt_not, ← count_eq_cnt]; omega
  obtain ⟨d, e, h1, h2⟩ := Darray.build_spec true (BitVector.ofRange l) hs
  rw [hg, hrep.size, ← hc] at h1
  refine ⟨d, e, h1, ?_, ?_⟩
  · intro i hi
    rw [hc] at hi
    obtain ⟨p, p1, p2, p3⟩ := sel_exists hi
    refine ⟨p, ?_, (isSelect0_iff l i p).2 ⟨p1, by simpa using p2, by rw [← cnt_not]; exact p3⟩⟩
    apply Darray.select_spec true _ hs d (by rw [hg, hrep.size, h1, hc]) h2
    · rw [hrep.size]; exact p1
    · rw [hg]; exact p2
    · rw [hg]; exact p3
  · intro i hi
    unfold Darray.select assertP
    rw [if_neg (by omega)]; rfl

/-- **C19.** A `darray64` built by `append1` calls with skips of at most 64 zeros holds exactly the
unary codes, counts the ones, and selects each of them. -/
theorem C19_darray64 (ks : List Nat) (hks : ∀ k ∈ ks, k ≤ 64) :
    ∃ b d, (Darray64.new.bind fun b0 => ks.foldlM Darray64.append1 b0) = some b ∧ Darray64.ofBuilder b = some d ∧
      d.numOnes = ks.length ∧ d.bits = BitVector.ofRange (unary ks) ∧
      (∀ i, i < ks.length → d.select i = some (onePos ks i) ∧ IsSelect1 (unary ks) i (onePos ks i)) ∧
      (∀ i, ks.length ≤ i → d.select i = none) := by
  obtain ⟨b0, e0, h0⟩ := Darray64.new_good
  obtain ⟨b, e, h⟩ := Darray64.fold_good ks b0 [] h0 hks
  rw [List.nil_append] at h
  obtain ⟨v, ev, hv⟩ := BitVector.ofBuilder_rep b.bits _ h.bits
  refine ⟨b, ⟨b.nOnes, v, b.block, b.subblock⟩, by rw [e0, Option.bind_some, e], ?_, h.n, BitVector.eq_ofRange hv, ?_, ?_⟩
  · unfold Darray64.ofBuilder; rw [ev, bind_pure_some]; rfl
  · intro i hi
    exact ⟨Darray64.select_eq _ b ks h (by rw [BitVector.eq_ofRange hv]) hks i hi, isSelect1_onePos ks i hi⟩
  · intro i hi
    unfold Darray64.select assertP
    rw [if_neg (by simp only [h.n]; omega)]; rfl

/-- 200 bits, every fifth set -/
def exampleDense : List Bool := (List.range 200).map fun i => i % 5 == 0

/- a dense block, computed by the model: 40 ones, the 36th is found by the word scan -/
example : (Darray.build false (BitVector.ofRange exampleDense)).bind
    (fun d => d.select false (BitVector.ofRange exampleDense) 36) = some 180 := by decide +kernel

/- `darray0` on a vector whose last word has padding -/
example : (Darray.build true (BitVector.ofRange exampleDense)).map (fun d => d.positions) = some 160 := by decide +kernel

/- a sparse block goes to the overflow list -/
example : Darray.flush [5, 70000] ⟨[0], [0], [7]⟩ = some ⟨[0, -2], [0, 65535], [7, 5, 70000]⟩ := by decide +kernel

/- 150 skips between 0 and 64, so that `select` uses inventories and word scans -/
example : ((Darray64.new.bind fun b => ((List.range 150).map (fun i => i * 7 % 65)).foldlM Darray64.append1 b).bind
    Darray64.ofBuilder).bind (fun d => d.select 130) = some (onePos ((List.range 150).map (fun i => i * 7 % 65)) 130) := by
  decide +kernel
example : onePos ((List.range 150).map (fun i => i * 7 % 65)) 130 = 4290 := by decide +kernel

end Succinct
