import Verif.Lemmas.TestRank
import Verif.Lemmas.TestEnum
import Verif.Lemmas.BitVector
import Verif.Props.Broadword

/-! # The drivers of `bit_vector` on the objects of the library -/
namespace Succinct
namespace Test
open Spec Broadword
open RSBitVector (bind_pure_some)

/-- a loop whose body keeps an invariant -/
theorem forUp_inv {σ : Type} {f : Nat → σ → Option σ} (I : Nat → σ → Prop) : ∀ (n i : Nat) (s : σ), I i s →
    (∀ j s, i ≤ j → j < i + n → I j s → ∃ s', f j s = some s' ∧ I (j+1) s') → ∃ s', forUp f n i s = some s' ∧ I (i+n) s'
  | 0, i, s, hI, _ => ⟨s, rfl, hI⟩
  | n+1, i, s, hI, h => by
    obtain ⟨s1, e1, h1⟩ := h i s (by omega) (by omega) hI
    obtain ⟨s2, e2, h2⟩ := forUp_inv I n (i+1) s1 h1 (fun j s g1 g2 => h j s (by omega) (by omega))
    refine ⟨s2, ?_, by rw [show i + (n+1) = i + 1 + n from by omega]; exact h2⟩
    unfold forUp
    rw [e1, bind_pure_some, e2]

theorem rep_equal {bv : BitVector} {v : List Bool} (h : Rep bv v) : equalBits v bv.size bv.access = some () :=
  (equalBits_iff v _ _).2 ⟨h.size, fun i hi => by rw [BitVector.access_eq h i hi, bitFn_getElem? v i hi]⟩

theorem push_fold : ∀ (v : List Bool) (b : Builder) (l : List Bool), Inv b l → ∃ b', v.foldlM Builder.pushBack b = some b' ∧ Inv b' (l ++ v)
  | [], b, l, h => ⟨b, rfl, by simpa using h⟩
  | x :: v, b, l, h => by
    obtain ⟨b1, e1, h1⟩ := Builder.pushBack_inv b l h x
    obtain ⟨b2, e2, h2⟩ := push_fold v b1 _ h1
    refine ⟨b2, ?_, by simpa using h2⟩
    rw [List.foldlM_cons, e1, bind_pure_some, e2]

theorem built (v : List Bool) : ∃ b0 b, Builder.new 0 false = some b0 ∧ v.foldlM Builder.pushBack b0 = some b ∧ Inv b v := by
  obtain ⟨b0, e0, h0⟩ := Builder.new_inv 0 false
  obtain ⟨b, e, h⟩ := push_fold v b0 _ h0
  exact ⟨b0, b, e0, e, by simpa using h⟩

theorem bitVectorPush_ok (v : List Bool) : bitVectorPush v = some () := by
  obtain ⟨b0, b, e0, e, h⟩ := built v
  obtain ⟨bv, e2, h2⟩ := BitVector.ofBuilder_rep b v h
  unfold bitVectorPush
  rw [e0, bind_pure_some, e, bind_pure_some, e2, bind_pure_some, rep_equal h2]

theorem bvbReverse_ok (v : List Bool) : bvbReverse v = some () := by
  obtain ⟨b0, b, e0, e, h⟩ := built v
  obtain ⟨b1, e1, h1⟩ := Builder.reverse_inv b v h
  obtain ⟨bv, e2, h2⟩ := BitVector.ofBuilder_rep b1 _ h1
  unfold bvbReverse
  rw [e0, bind_pure_some, show (v.foldlM (fun b x => b.pushBack x) b0) = some b from e, bind_pure_some, e1, bind_pure_some, e2, bind_pure_some,
    rep_equal h2]

theorem bitVectorSet_ok (v : List Bool) : bitVectorSet v = some () := by
  obtain ⟨b0, e0, h0⟩ := Builder.new_inv v.length false
  obtain ⟨b, e, h⟩ := forUp_inv (f := fun i (b : Builder) => do
      let x ← rd v i
      b.set i x) (fun i b => Inv b (v.take i ++ List.replicate (v.length - i) false)) v.length 0 b0 (by simpa using h0) (by
    intro j s _ hj hs
    obtain ⟨s', e', h'⟩ := Builder.set_inv s _ hs j v[j] (by simp; omega)
    refine ⟨s', ?_, ?_⟩
    · show (v[j]? >>= _) = _
      rw [List.getElem?_eq_getElem (by omega), bind_pure_some, e']
    · have : (v.take j ++ List.replicate (v.length - j) false).set j v[j] = v.take (j+1) ++ List.replicate (v.length - (j+1)) false := by
        rw [List.set_append_right _ _ (by rw [List.length_take]; omega), List.length_take, Nat.min_eq_left (by omega), Nat.sub_self,
          show v.length - j = (v.length - (j+1)) + 1 from by omega, List.replicate_succ, List.set_cons_zero, List.take_add_one,
          List.getElem?_eq_getElem (by omega), List.append_assoc]
        rfl
      rwa [this] at h')
  rw [Nat.zero_add, Nat.sub_self, List.take_length, List.replicate_zero, List.append_nil] at h
  obtain ⟨b1, e1, h1⟩ := Builder.pushBack_inv b _ h false
  obtain ⟨b2, e2, h2⟩ := Builder.pushBack_inv b1 _ h1 true
  obtain ⟨bv, e3, h3⟩ := BitVector.ofBuilder_rep b2 _ h2
  unfold bitVectorSet
  rw [e0, bind_pure_some, e, bind_pure_some, e1, bind_pure_some, e2, bind_pure_some, e3, bind_pure_some]
  have := rep_equal h3
  simpa using this

/-! ## `append_bits`, `set_bits` and `get_bits` -/

theorem msb1_fits {i : Word} (h : i ≠ 0) : ∃ m, msb1 i = some m ∧ Fits i (m+1) := by
  obtain ⟨m, e, h1, _, h3⟩ := (C11_msb i).2.2.2 h
  refine ⟨m, e, by omega, Nat.lt_pow_two_of_testBit _ fun j hj => h3 j (by omega)⟩

/-- number of bits of a nonzero word -/
def blen (i : Word) : Nat := (msb1 i).getD 0 + 1

theorem blen_ok {i : Word} (h : i ≠ 0) : msb1 i = some (blen i - 1) ∧ Fits i (blen i) ∧ 1 ≤ blen i := by
  obtain ⟨m, e, hf⟩ := msb1_fits h
  unfold blen
  rw [e]
  exact ⟨rfl, hf, by simp⟩

/-- the bits of all the words -/
def cat (ints : List Word) : List Bool := ints.flatMap fun i => lowBits i (blen i)

theorem get_back (ov : Word → Nat → Word) {bv : BitVector} {pre post : List Bool} {i : Word} {n : Nat} (hf : Fits i n)
    (h : Rep bv (pre ++ lowBits i n ++ post)) : bv.getBits ov pre.length n = some i := by
  obtain ⟨x, e, hx⟩ := BitVector.getBits_eq ov h pre.length n hf.1 (by simp)
  rw [e]
  congr 1
  apply BitVec.eq_of_getLsbD_eq
  intro j _
  rw [hx, bitFn_append, bitFn_append]
  by_cases hj : j < n
  · simp [hj, bitFn_lowBits]
  · have : i.getLsbD j = false := by
      exact Builder.fits_bits hf j (by omega)
    simp [hj, this]

theorem append_fold : ∀ (ints : List Word) (b : Builder) (l : List Bool), (∀ i ∈ ints, i ≠ 0) → Inv b l →
    ∃ b', ints.foldlM (fun (b : Builder) i => do
      let m ← msb1 i
      b.appendBits i (m + 1)) b = some b' ∧ Inv b' (l ++ cat ints)
  | [], b, l, _, h => ⟨b, rfl, by simpa [cat] using h⟩
  | i :: ints, b, l, hn, h => by
    obtain ⟨k1, k2, k3⟩ := blen_ok (hn i (by simp))
    obtain ⟨b1, e1, h1⟩ := Builder.appendBits_inv b l h i (blen i) k2
    obtain ⟨b2, e2, h2⟩ := append_fold ints b1 _ (fun x hx => hn x (by simp [hx])) h1
    refine ⟨b2, ?_, by simpa [cat] using h2⟩
    rw [List.foldlM_cons, k1, bind_pure_some, show blen i - 1 + 1 = blen i from by omega, e1, bind_pure_some, e2]

theorem get_fold (ov : Word → Nat → Word) (bv : BitVector) : ∀ (ints : List Word) (pre : List Bool), (∀ i ∈ ints, i ≠ 0) →
    Rep bv (pre ++ cat ints) → ∃ p, ints.foldlM (fun pos i => do
      let m ← msb1 i
      let x ← bv.getBits ov pos (m + 1)
      assertP (i = x)
      pure (pos + (m + 1))) pre.length = some p
  | [], pre, _, h => ⟨_, rfl⟩
  | i :: ints, pre, hn, h => by
    obtain ⟨k1, k2, k3⟩ := blen_ok (hn i (by simp))
    have h' : Rep bv (pre ++ lowBits i (blen i) ++ cat ints) := by simpa [cat] using h
    obtain ⟨p, e⟩ := get_fold ov bv ints (pre ++ lowBits i (blen i)) (fun x hx => hn x (by simp [hx])) h'
    refine ⟨p, ?_⟩
    rw [List.foldlM_cons, k1, bind_pure_some, show blen i - 1 + 1 = blen i from by omega, get_back ov k2 h', bind_pure_some,
      assertP_eq _ rfl, bind_pure_some]
    rw [List.length_append, lowBits_length] at e
    exact e

theorem bitVectorAppend_ok (ov : Word → Nat → Word) (ints : List Word) (hn : ∀ i ∈ ints, i ≠ 0) : bitVectorAppend ov ints = some () := by
  obtain ⟨b0, e0, h0⟩ := Builder.new_inv 0 false
  obtain ⟨b, e, h⟩ := append_fold ints b0 _ hn h0
  obtain ⟨bv, e1, h1⟩ := BitVector.ofBuilder_rep b _ h
  obtain ⟨p, e2⟩ := get_fold ov bv ints [] hn (by simpa using h1)
  unfold bitVectorAppend
  rw [e0, bind_pure_some, e, bind_pure_some, e1, bind_pure_some, show (0 : Nat) = ([] : List Bool).length from rfl, e2]
  rfl

theorem positions_ok : ∀ (ints : List Word) (p : Nat), (∀ i ∈ ints, i ≠ 0) →
    ∃ ps, positions ints p = some ps ∧ ps.length = ints.length + 1 ∧ ∀ k, k ≤ ints.length → ps[k]? = some (p + (cat (ints.take k)).length)
  | [], p, _ => ⟨[p], rfl, rfl, fun k hk => by
      simp at hk; subst hk; rfl⟩
  | i :: ints, p, hn => by
    obtain ⟨k1, k2, k3⟩ := blen_ok (hn i (by simp))
    obtain ⟨ps, e, h1, h2⟩ := positions_ok ints (p + (blen i - 1) + 1) (fun x hx => hn x (by simp [hx]))
    refine ⟨p :: ps, ?_, by simp [h1], fun k hk => ?_⟩
    · unfold positions
      rw [k1, bind_pure_some, e]; rfl
    · cases k with
      | zero => rfl
      | succ k =>
        rw [List.getElem?_cons_succ, h2 k (by simpa using hk), List.take_succ_cons]
        simp only [cat, List.flatMap_cons, List.length_append, lowBits_length]
        congr 1; omega

theorem cat_split (ints : List Word) (j : Nat) (hj : j < ints.length) :
    cat (ints.take (j+1)) = cat (ints.take j) ++ lowBits ints[j] (blen ints[j]) := by
  unfold cat
  rw [List.take_add_one, List.getElem?_eq_getElem hj, List.flatMap_append, Option.toList_some, List.flatMap_singleton]

theorem cat_all (ints : List Word) (j : Nat) : cat ints = cat (ints.take j) ++ cat (ints.drop j) := by
  unfold cat
  rw [← List.flatMap_append, List.take_append_drop]

theorem bitVectorSetBits_ok (ov : Word → Nat → Word) (ints : List Word) (hn : ∀ i ∈ ints, i ≠ 0) : bitVectorSetBits ov ints = some () := by
  obtain ⟨ps, ep, h1, h2⟩ := positions_ok ints 0 hn
  have hlast : ps.getLast? = some (cat ints).length := by
    rw [List.getLast?_eq_getElem?, h1, Nat.add_sub_cancel, h2 _ (Nat.le_refl _), List.take_length, Nat.zero_add]
  obtain ⟨b0, e0, h0⟩ := Builder.new_inv (cat ints).length false
  have hlen : ∀ j, (cat (ints.take j)).length ≤ (cat ints).length := by
    intro j; rw [cat_all ints j]; simp
  have hstep : ∀ j (hj : j < ints.length), (cat (ints.take (j+1))).length = (cat (ints.take j)).length + blen ints[j] := by
    intro j hj; rw [cat_split ints j hj]; simp
  have rdp : ∀ k, k ≤ ints.length → rd ps k = some (cat (ints.take k)).length := by
    intro k hk; show ps[k]? = _; rw [h2 k hk, Nat.zero_add]
  have rdi : ∀ k (hk : k < ints.length), rd ints k = some ints[k] := by
    intro k hk; exact List.getElem?_eq_getElem hk
  obtain ⟨b, e, h⟩ := forUp_inv (f := fun i (b : Builder) => do
      let v ← rd ints i
      let q ← rd ps (i + 1)
      let p ← rd ps i
      let len ← subU q p
      b.setBits p v len)
    (fun i b => Inv b (cat (ints.take i) ++ List.replicate ((cat ints).length - (cat (ints.take i)).length) false)) ints.length 0 b0
    (by simpa [cat] using h0) (by
      intro j s _ hj hs
      have hj : j < ints.length := by omega
      obtain ⟨k1, k2, k3⟩ := blen_ok (hn ints[j] (List.getElem_mem hj))
      have g1 := hlen (j+1)
      have g2 := hstep j hj
      obtain ⟨s', e', h'⟩ := Builder.setBits_inv s _ hs (cat (ints.take j)).length ints[j] (blen ints[j]) (by simp; omega) k2
      refine ⟨s', ?_, ?_⟩
      · rw [rdi j hj, bind_pure_some, rdp (j+1) (by omega), bind_pure_some, rdp j (by omega), bind_pure_some,
          subU_eq _ _ (by omega), bind_pure_some, show (cat (ints.take (j+1))).length - (cat (ints.take j)).length = blen ints[j] from by omega, e']
      · rw [List.take_left, List.drop_append, List.drop_eq_nil_of_le (by omega), List.drop_replicate, List.nil_append] at h'
        rw [cat_split ints j hj, List.length_append, lowBits_length]
        rwa [show (cat ints).length - ((cat (ints.take j)).length + blen ints[j]) =
          (cat ints).length - (cat (ints.take j)).length - ((cat (ints.take j)).length + blen ints[j] - (cat (ints.take j)).length) from by omega])
  rw [Nat.zero_add, List.take_length, Nat.sub_self, List.replicate_zero, List.append_nil] at h
  obtain ⟨bv, e3, h3⟩ := BitVector.ofBuilder_rep b _ h
  unfold bitVectorSetBits
  rw [ep, bind_pure_some, hlast, bind_pure_some, e0, bind_pure_some, subU_eq _ _ (by omega), bind_pure_some, h1, Nat.add_sub_cancel, e,
    bind_pure_some, e3, bind_pure_some]
  refine (forUp_unit (fun _ => True) _ _ ?_).2 (fun _ _ _ => trivial)
  intro j _ hj
  have hj : j < ints.length := by omega
  refine ⟨fun _ => trivial, fun _ => ?_⟩
  obtain ⟨k1, k2, k3⟩ := blen_ok (hn ints[j] (List.getElem_mem hj))
  have g2 := hstep j hj
  have h3' : Rep bv (cat (ints.take j) ++ lowBits ints[j] (blen ints[j]) ++ cat (ints.drop (j+1))) := by
    rw [← cat_split ints j hj, ← cat_all]; exact h3
  rw [rdi j hj, bind_pure_some, rdp (j+1) (by omega), bind_pure_some, rdp j (by omega), bind_pure_some, subU_eq _ _ (by omega), bind_pure_some,
    show (cat (ints.take (j+1))).length - (cat (ints.take j)).length = blen ints[j] from by omega, get_back ov k2 h3', bind_pure_some,
    assertP_eq _ rfl]

theorem unaryEnumerator_iff (v : List Bool) : unaryEnumerator v = some () ↔ v.getLast? = some true := by
  have hr := (BitVector.ofRange_rep v).repr
  unfold unaryEnumerator
  by_cases hv : v = []
  · subst hv; decide +kernel
  · dsimp only
    rw [unaryNext_ok hr hv, bind_pure_some, unarySkip_ok hr hv, bind_pure_some, unarySkipNoMove_ok hr hv, bind_pure_some, unarySkip0_iff hr]

theorem bitVectorEnum_ok (rand : Nat → Nat) (v : List Bool) : bitVectorEnum rand v = some () := by
  have h := BitVector.ofRange_rep v
  unfold bitVectorEnum
  dsimp only
  rw [h.size]
  refine jumps_ok _ _ rand v (fun i hi => ?_) rfl _ _ _ _ rfl (by omega) (by omega)
  obtain ⟨e', e1, _⟩ := Enum.next_good h (Enum.new i) i (.inl (Enum.new_good i)) hi
  exact ⟨_, _, _, rfl, e1, bitFn_getElem? v i hi⟩

end Test
end Succinct
