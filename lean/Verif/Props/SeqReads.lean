import Verif.Lemmas.SeqReads
import Verif.Props.Space

/-! # C101: what it takes to enumerate an `elias_fano`, a `gamma_vector`, a `gamma_bit_vector` -/
namespace Succinct
open Spec

/-- **C101**, `elias_fano`: value `j` has its one at bit `H j = xs[j] / 2^l + j` of the high part.  Beginning at value `i`, `k` calls of `next` read every
word of the high part from that of `H i` to that of `H (i + k - 1)` exactly once and in order, and one word of the low part for `64 / l` values. -/
theorem C101_elias_fano (n : Word) (m : Nat) (xs : List Word) (h : Storable n m xs) (wr : Bool) :
    ∃ ef, EliasFano.ofSeq n m xs wr = some ef ∧ ∀ i k a b, 0 < k → xs[i]? = some a → xs[i + k - 1]? = some b →
      ∃ e hs, EliasFano.SelEnum.newR ef i = some (e, [(a.toNat / 2^Nat.log2 (n.toNat / m) + i) / 64]) ∧
        EliasFano.SelEnum.runR ef k e = some ((xs.drop i).take k, hs, fieldReads (Nat.log2 (n.toNat / m)) i k) ∧
        (a.toNat / 2^Nat.log2 (n.toNat / m) + i) / 64 :: hs = List.range' ((a.toNat / 2^Nat.log2 (n.toNat / m) + i) / 64)
          ((b.toNat / 2^Nat.log2 (n.toNat / m) + (i + k - 1)) / 64 - (a.toNat / 2^Nat.log2 (n.toNat / m) + i) / 64 + 1) := by
  obtain ⟨ef, hb, e, g, _⟩ := EliasFano.ofSeq_good n m xs h wr
  refine ⟨ef, e, fun i k a b hk ha hb' => ?_⟩
  have hl := lowLen_log2 (EliasFano.ofSeq_shape e).hl
  rw [← hl]
  obtain ⟨hi, rfl⟩ := List.getElem?_eq_some_iff.1 ha
  obtain ⟨hj, rfl⟩ := List.getElem?_eq_some_iff.1 hb'
  obtain ⟨se, e1, g1⟩ := EliasFano.SelEnum.new_ok g i hi
  obtain ⟨u, c, u1, u2, u3⟩ := g1.high hi
  have hn := EliasFano.SelEnum.newR_eq ef i se u e1 u1
  have hav : se.chunksAvail = if ef.l ≠ 0 then 0 else xs.length := by
    have := g.ones
    unfold EliasFano.SelEnum.new at e1
    obtain ⟨_, _, e1⟩ := Option.bind_eq_some_iff.1 e1
    have h0 : ¬ ef.numOnes = 0 := by unfold EliasFano.numOnes; omega
    simp only [if_neg h0] at e1
    obtain ⟨_, _, e1⟩ := Option.bind_eq_some_iff.1 e1
    obtain ⟨_, _, e1⟩ := Option.bind_eq_some_iff.1 e1
    obtain ⟨_, _, e1⟩ := Option.bind_eq_some_iff.1 e1
    cases e1
    dsimp only
    unfold EliasFano.numOnes
    rw [this]
  have hpos : u.position = xs[i].toNat / 2^ef.l + i := by
    unfold EliasFano.SelEnum.new at e1
    obtain ⟨_, _, e1⟩ := Option.bind_eq_some_iff.1 e1
    have h0 : ¬ ef.numOnes = 0 := by have := g.ones; unfold EliasFano.numOnes; omega
    simp only [if_neg h0] at e1
    obtain ⟨p, hp, e1⟩ := Option.bind_eq_some_iff.1 e1
    obtain ⟨u0, h3, e1⟩ := Option.bind_eq_some_iff.1 e1
    obtain ⟨_, _, e1⟩ := Option.bind_eq_some_iff.1 e1
    cases e1
    cases u1
    rw [g.sel i hi] at hp
    unfold UEnum.new at h3
    obtain ⟨w, _, h3⟩ := Option.bind_eq_some_iff.1 h3
    obtain ⟨m, _, h3⟩ := Option.bind_eq_some_iff.1 h3
    cases h3
    exact (Option.some.inj hp).symm
  obtain ⟨r, r1, _, r3⟩ := EliasFano.SelEnum.runR_ok g (fun j => ((xs[j]?).getD 0).toNat / 2^ef.l + j)
    (fun j hj => by rw [List.getElem?_eq_getElem hj]; rfl) k i (by omega) se g1 u u1
  obtain ⟨r4, r5⟩ := r3 (by omega)
  rw [hpos] at r4 r5 hn
  rw [List.getElem?_eq_getElem hj, Option.getD_some] at r4 r5
  refine ⟨se, r, hn, ?_, ?_⟩
  · rw [r1]
    by_cases hl0 : ef.l = 0
    · unfold fieldReads
      rw [if_pos hl0, if_pos hl0]
    · rw [hav, if_pos hl0]
      rfl
  · rw [r5, List.range'_succ]
    rfl

/-- 3 values in an `elias_fano` for 200 of them: 3 low bits each, got at once; ones at 0, 188 and 252 of the high part -/
example : (EliasFano.ofSeq 2000 200 [3, 1500, 2000] false).bind (fun ef => (EliasFano.SelEnum.newR ef 0).bind fun r => (EliasFano.SelEnum.runR ef 3 r.1).map
    fun s => (r.2, s.2)) = some ([0], [1, 2, 3], [0]) ∧ fieldReads 3 0 3 = [0] ∧ fieldReads 30 5 6 = [150, 210, 270] := by decide +kernel

/-- **C101**, `gamma_vector`: value `j` begins at bit `P j` (codes before it, and one bit for each) of the high part.  Beginning at value `i`, `k` calls of `next`
read every word of the high part from that of `P i + 1` to that of `P (i + k)` exactly once and in order; `fill_buf` is called at most twice for 65 bits of
the low part, and once more. -/
theorem C101_gamma_vector (v : List Word) (hv : ∀ x ∈ v, x ≠ BitVec.allOnes 64) (P : Nat → Nat) (hP : ∀ j, P j = codeBits 1 (v.map BitVec.toNat) 0 j + j) :
    ∃ g, GammaVector.build v = some g ∧ ∀ i k, 0 < k → i + k ≤ v.length →
      ∃ e hs f, GammaVector.enumNewR g i = some (e, [(P i + 1) / 64]) ∧ GammaVector.enumRunR g k e = some ((v.drop i).take k, hs, f) ∧
        (P i + 1) / 64 :: hs = List.range' ((P i + 1) / 64) (P (i + k) / 64 - (P i + 1) / 64 + 1) ∧
        f ≤ k ∧ f ≤ 2 * (codeBits 1 (v.map BitVec.toNat) i k / 65) + 1 := by
  obtain ⟨g, e, h⟩ := GammaVector.build_good v hv
  refine ⟨g, e, fun i k hk hi => ?_⟩
  have hx : ∀ x ∈ v, x.toNat + 1 < 2^64 ∧ x.toNat + 1 ≠ 0 := fun x hx => ⟨lt_of_ne_allOnes (hv x hx), by omega⟩
  have hg := fun i k => goff_codeBits 1 v hx i k
  have h0 : goff 1 v 0 = 0 := by simp [goff]
  have hon : ∀ j, j ≤ v.length → onePos (0 :: v.map (glen 1)) j = P j := fun j hj => by
    have := hg 0 j
    rw [Nat.zero_add] at this
    rw [GammaVector.off_eq j hj, hP]
    exact congrArg (· + j) (by rw [← Nat.zero_add (codeBits _ _ _ _), ← h0]; exact this)
  obtain ⟨en, e1, g1⟩ := GammaVector.enumNew_ok h i (by omega)
  obtain ⟨u, u1, _⟩ := g1.high
  obtain ⟨n1, n2, n3⟩ := GammaVector.enumNewR_eq i en u e1 u1
  obtain ⟨r, f, a, r1, _, r3, r4, r5⟩ := GammaVector.enumRunR_ok h k i hi en g1 u u1 0 0 ⟨by omega, Or.inl ⟨rfl, n3⟩⟩
  obtain ⟨r6, r7⟩ := r3 (by omega)
  rw [n2, g1.pos, hon i (by omega), hon (i + k) hi] at r6 r7
  rw [n2, g1.pos, hon i (by omega)] at n1
  refine ⟨en, r, f, n1, r1, by rw [r7, List.range'_succ]; rfl, r4, ?_⟩
  have hb := r5.bound
  have : goff 1 v (i + k) = goff 1 v i + _ := hg i k
  rw [this, Nat.add_sub_cancel_left, Nat.zero_add, Nat.zero_add] at hb
  exact hb

/-- 65 bits may take two calls of `fill_buf`: codes of 33 and 32 bits -/
example : (GammaVector.build [0x1ffffffff, 0xffffffff]).bind (fun g => (GammaVector.enumNewR g 0).bind fun r => (GammaVector.enumRunR g 2 r.1).map
    fun s => (r.2, s.2)) = some ([0], [1], 2) ∧ codeBits 1 [0x1ffffffff, 0xffffffff] 0 2 = 65 := by decide +kernel

/-- **C101**, `gamma_bit_vector`: the same; here value `j` begins at bit `P j` of both parts. -/
theorem C101_gamma_bit_vector (v : List Word) (hv : ∀ x ∈ v, x.toNat < 2^64 - 2) (P : Nat → Nat) (hP : ∀ j, P j = codeBits 2 (v.map BitVec.toNat) 0 j) :
    ∃ g, GammaBitVector.build v = some g ∧ ∀ i k, 0 < k → i + k ≤ v.length →
      ∃ e hs f, GammaBitVector.enumNewR g i = some (e, [(P i + 1) / 64]) ∧ GammaBitVector.enumRunR g k e = some ((v.drop i).take k, hs, f) ∧
        (P i + 1) / 64 :: hs = List.range' ((P i + 1) / 64) (P (i + k) / 64 - (P i + 1) / 64 + 1) ∧
        f ≤ k ∧ f ≤ 2 * (codeBits 2 (v.map BitVec.toNat) i k / 65) + 1 := by
  obtain ⟨g, e, h, hp⟩ := GammaBitVector.build_good v hv
  refine ⟨g, e, fun i k hk hi => ?_⟩
  have hx : ∀ x ∈ v, x.toNat + 2 < 2^64 ∧ x.toNat + 2 ≠ 0 := fun x hx => by have := hv x hx; omega
  have hg := fun i k => goff_codeBits 2 v hx i k
  have h0 : goff 2 v 0 = 0 := by simp [goff]
  have hon : ∀ j, j ≤ v.length → onePos (0 :: v.map GammaBitVector.hlen) j = P j := fun j hj => by
    have := hg 0 j
    rw [Nat.zero_add] at this
    rw [GammaBitVector.off_eq hp j hj, hP]
    rw [← Nat.zero_add (codeBits _ _ _ _), ← h0]; exact this
  obtain ⟨en, e1, g1⟩ := GammaBitVector.enumNew_ok h hp i (by omega)
  obtain ⟨u, u1, _⟩ := g1.high
  obtain ⟨n1, n2, n3⟩ := GammaBitVector.enumNewR_eq i en u e1 u1
  obtain ⟨r, f, a, r1, _, r3, r4, r5⟩ := GammaBitVector.enumRunR_ok h hp k i hi en g1 u u1 0 0 ⟨by omega, Or.inl ⟨rfl, n3⟩⟩
  obtain ⟨r6, r7⟩ := r3 (by omega)
  rw [n2, g1.pos, hon i (by omega), hon (i + k) hi] at r6 r7
  rw [n2, g1.pos, hon i (by omega)] at n1
  refine ⟨en, r, f, n1, r1, by rw [r7, List.range'_succ]; rfl, r4, ?_⟩
  have hb := r5.bound
  have : goff 2 v (i + k) = goff 2 v i + _ := hg i k
  rw [this, Nat.add_sub_cancel_left, Nat.zero_add, Nat.zero_add] at hb
  exact hb

example : (GammaBitVector.build [0x1ffffffff, 0xffffffff]).bind (fun g => (GammaBitVector.enumNewR g 0).bind fun r => (GammaBitVector.enumRunR g 2 r.1).map
    fun s => (r.2, s.2)) = some ([0], [1], 2) ∧ codeBits 2 [0x1ffffffff, 0xffffffff] 0 2 = 65 := by decide +kernel

end Succinct
