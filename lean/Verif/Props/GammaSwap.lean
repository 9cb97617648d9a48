import Verif.Lemmas.GammaSwap

/-! # C126: forward enumerators of gamma vectors that are swapped -/
namespace Succinct
open Broadword Spec GammaSwap
open RSBitVector (bind_pure_some)

/-- **C126**: `gamma_vector`s with any contents `a`, a `forward_enumerator` on vector `i` at `idx`, then any interleaving of swaps of two vectors
and calls of `next`: the number of digits of each answer is that of the value vector `i` held when the enumerator was made; the
digits are those held by the enumerator if they suffice, otherwise those the vector holds by then, at the place where the digits were
before. -/
theorem C126_gamma_vector (a : Nat → List Word) (ha : ∀ j, ∀ x ∈ a j, x ≠ BitVec.allOnes 64) :
    ∃ s : Objs GammaVec, (∀ j, GammaVector.build (a j) = some (s j)) ∧
      ∀ i idx ops outs, idx < (a i).length → GammaMix 1 i (a i) a [] 0 idx ops outs → startG s i idx ops = some outs := by
  have hb := fun j => GammaVector.build_good (a j) (ha j)
  refine ⟨fun j => (hb j).choose, fun j => (hb j).choose_spec.1, fun i idx ops outs hi h => ?_⟩
  have hg := fun j => (hb j).choose_spec.2
  have hr : ∀ j, ∀ x ∈ a j, x.toNat + 1 < 2^64 ∧ x.toNat + 1 ≠ 0 := by
    intro j x hx
    have h1 : x.toNat ≠ 2^64 - 1 := fun e => ha j x hx (BitVec.eq_of_toNat_eq (by rw [e]; rfl))
    have := x.isLt
    omega
  have hd : ∀ (k : Nat) (y : Word), (a i)[k]? = some y → digits 1 y < 64 ∧ 1 ≤ 2^digits 1 y ∧ digits 1 y = glen 1 y := by
    intro k y hy
    have hm := hr i y (List.mem_of_getElem? hy)
    exact ⟨(Nat.log2_lt hm.2).2 hm.1, Nat.one_le_two_pow, (glen_log2 1 y hm.1 hm.2).symm⟩
  have hk : Kind 1 (glen 1) nextG (a i) (hb i).choose.high.bits.bits := by
    refine ⟨fun k y hy => ⟨(hd k y hy).1, (hd k y hy).2.1⟩, ?_⟩
    intro cur n hn e k src left p he y hy hkn w e' ht src' left' p' hl hle
    obtain ⟨hkl, hyk⟩ := List.getElem?_eq_some_iff.1 hy
    rw [(hd k y hy).2.2, ← hyk] at ht ⊢
    exact nextG_eq (hg i) cur n hn e k src left p he hkl hkn w e' ht src' left' p' hl hle
  obtain ⟨e, e1, e2⟩ := GammaVector.enumNew_ok (hg i) idx hi
  have e1' : GammaVector.enumNew (hb i).choose idx = some e := e1
  unfold startG
  rw [e1', bind_pure_some]
  have hpos := digitPos_eq 1 (a i) (hr i) idx
  have hnew : e.low = Enum.new (digitPos 1 (a i) idx) := by
    unfold GammaVector.enumNew at e1
    rw [(hg i).size_eq, bind_pure_some, if_pos hi, (hg i).sel idx (by omega), bind_pure_some] at e1
    obtain ⟨u, _, e1⟩ := Option.bind_eq_some_iff.1 e1
    rw [subU_eq _ _ (by rw [GammaVector.off_eq idx (by omega)]; omega), bind_pure_some] at e1
    cases e1
    show Enum.new _ = _
    rw [GammaVector.off_eq idx (by omega), Nat.add_sub_cancel, ← hpos]
    rfl
  refine run_mix hk i h _ e (fun j => ⟨(hg j).size_eq, ?_⟩) ⟨e2.idx, e2.pos, e2.high, ?_, ?_⟩
  · rw [← digitSeq_eq 1 (a j) (hr j)]
    exact (hg j).low
  · rw [hnew]; exact Enum.new_good _
  · rw [hnew]; rfl

/-- **C126**, `gamma_bit_vector` -/
theorem C126_gamma_bit_vector (a : Nat → List Word) (ha : ∀ j, ∀ x ∈ a j, x.toNat < 2^64 - 2) :
    ∃ s : Objs GammaVec, (∀ j, GammaBitVector.build (a j) = some (s j)) ∧
      ∀ i idx ops outs, idx < (a i).length → GammaMix 2 i (a i) a [] 0 idx ops outs → startB s i idx ops = some outs := by
  have hb := fun j => GammaBitVector.build_good (a j) (ha j)
  refine ⟨fun j => (hb j).choose, fun j => (hb j).choose_spec.1, fun i idx ops outs hi h => ?_⟩
  have hg := fun j => (hb j).choose_spec.2.1
  have h1 := fun j => (hb j).choose_spec.2.2
  have hr : ∀ j, ∀ x ∈ a j, x.toNat + 2 < 2^64 ∧ x.toNat + 2 ≠ 0 := by
    intro j x hx
    have := ha j x hx
    omega
  have hd : ∀ (k : Nat) (y : Word), (a i)[k]? = some y → digits 2 y < 64 ∧ 2 ≤ 2^digits 2 y ∧ digits 2 y = glen 2 y := by
    intro k y hy
    have hm := hr i y (List.mem_of_getElem? hy)
    have hl : digits 2 y = glen 2 y := (glen_log2 2 y hm.1 hm.2).symm
    refine ⟨(Nat.log2_lt hm.2).2 hm.1, ?_, hl⟩
    have := h1 i y (List.mem_of_getElem? hy)
    calc 2 = 2^1 := rfl
      _ ≤ 2^digits 2 y := Nat.pow_le_pow_right (by omega) (by omega)
  have hk : Kind 2 GammaBitVector.hlen nextB (a i) (hb i).choose.high.bits.bits := by
    refine ⟨fun k y hy => ⟨(hd k y hy).1, (hd k y hy).2.1⟩, ?_⟩
    intro cur n hn e k src left p he y hy hkn w e' ht src' left' p' hl hle
    obtain ⟨hkl, hyk⟩ := List.getElem?_eq_some_iff.1 hy
    rw [(hd k y hy).2.2, ← hyk] at ht ⊢
    exact nextB_eq (hg i) (h1 i) cur n hn e k src left p he hkl hkn w e' ht src' left' p' hl hle
  obtain ⟨e, e1, e2⟩ := GammaBitVector.enumNew_ok (hg i) (h1 i) idx hi
  have e1' : GammaBitVector.enumNew (hb i).choose idx = some e := e1
  unfold startB
  rw [e1', bind_pure_some]
  have hpos := digitPos_eq 2 (a i) (hr i) idx
  have hnew : e.low = Enum.new (digitPos 2 (a i) idx) := by
    unfold GammaBitVector.enumNew at e1
    rw [(hg i).size_eq, bind_pure_some, if_pos hi, (hg i).sel idx (by omega), bind_pure_some] at e1
    obtain ⟨u, _, e1⟩ := Option.bind_eq_some_iff.1 e1
    cases e1
    show Enum.new _ = _
    rw [GammaBitVector.off_eq (h1 i) idx (by omega), ← hpos]
    rfl
  refine run_mix hk i h _ e (fun j => ⟨(hg j).size_eq, ?_⟩) ⟨e2.idx, e2.pos, e2.high, ?_, ?_⟩
  · rw [← digitSeq_eq 2 (a j) (hr j)]
    exact (hg j).low
  · rw [hnew]; exact Enum.new_good _
  · rw [hnew]; rfl

/-- **C126**: so every answer has as many digits as the value it stands for, whatever was swapped. -/
theorem C126_magnitude (c i : Nat) (v : List Word) (a : Nat → List Word) (src : List Bool) (left k : Nat) (ops : List SeqOp) (outs : List Word)
    (h : GammaMix c i v a src left k ops outs) :
    ∀ j z, outs[j]? = some z → ∃ y, v[k + j]? = some y ∧ Nat.log2 (z.toNat + c) = Nat.log2 (y.toNat + c) := by
  have key : ∀ (s : List Bool) (z y : Word), z.toNat + c = 2^digits c y + bitsToNat (s.take (digits c y)) →
      Nat.log2 (z.toNat + c) = Nat.log2 (y.toNat + c) := by
    intro s z y hz
    have h1 := bitsToNat_take_lt s (digits c y)
    have h2 : 0 < 2^digits c y := Nat.two_pow_pos _
    rw [hz]
    refine (Nat.log2_eq_iff (by omega)).2 ⟨?_, ?_⟩
    · exact Nat.le_add_right _ _
    · have : 2^(digits c y + 1) = 2^digits c y * 2 := Nat.pow_succ ..
      show _ < 2^(digits c y + 1)
      omega
  induction h with
  | nil => intro j z hj; cases hj
  | swap _ ih => exact ih
  | held hy _ _ hz _ ih =>
    intro j z hj
    cases j with
    | zero => cases hj; exact ⟨_, hy, key _ _ _ hz⟩
    | succ j =>
      obtain ⟨y, h1, h2⟩ := ih j z hj
      exact ⟨y, by rw [← h1]; congr 1; omega, h2⟩
  | fresh hy _ _ _ hz _ ih =>
    intro j z hj
    cases j with
    | zero => cases hj; exact ⟨_, hy, key _ _ _ hz⟩
    | succ j =>
      obtain ⟨y, h1, h2⟩ := ih j z hj
      exact ⟨y, by rw [← h1]; congr 1; omega, h2⟩

/-- **C126**: after a swap with a shorter vector the assertion on the index fails. -/
theorem C126_shorter (hw : List Word) (c : GammaVec) (e : GammaEnum) (n : Nat) (hn : c.size = some n) (h : n < e.idx) :
    nextG hw c e = none ∧ nextB hw c e = none := by
  unfold nextG nextB
  have h0 : assertP (e.idx ≤ n) = none := by
    unfold assertP
    rw [if_neg (by omega)]
  rw [hn, bind_pure_some, bind_pure_some, h0]
  exact ⟨rfl, rfl⟩

/-- 6, 1 and three ones -/
def gammaSwapA : Nat → List Word := fun j => if j = 0 then [6, 1] else if j = 1 then [1, 1, 1] else []

/-- the contents meet the hypothesis of `C126_gamma_vector` -/
theorem gammaSwapA_ok : ∀ j, ∀ x ∈ gammaSwapA j, x ≠ BitVec.allOnes 64 := by
  intro j x hx
  unfold gammaSwapA at hx
  split at hx
  · simp only [List.mem_cons, List.not_mem_nil, or_false] at hx
    rcases hx with rfl | rfl <;> decide
  · split at hx
    · simp only [List.mem_cons, List.not_mem_nil, or_false, or_self] at hx
      subst hx; decide
    · cases hx

/-- the history: swap the two, then read twice -/
theorem gammaSwapA_mix : GammaMix 1 0 (gammaSwapA 0) gammaSwapA [] 0 0 [.swap 0 1, .next, .next] [3, 1] := by
  refine .swap (.fresh (y := 6) rfl (by decide +kernel) (by decide +kernel) (by decide +kernel) (by decide +kernel) ?_)
  exact .held (y := 1) rfl (by decide +kernel) (by decide +kernel) (by decide +kernel) .nil

/-- **C126**: the answer may be a value of neither vector -/
theorem C126_mixed :
    (∃ s : Objs GammaVec, (∀ j, GammaVector.build (gammaSwapA j) = some (s j)) ∧ startG s 0 0 [.swap 0 1, .next, .next] = some [3, 1]) ∧
    3 ∉ gammaSwapA 0 ∧ 3 ∉ gammaSwapA 1 := by
  obtain ⟨s, h1, h2⟩ := C126_gamma_vector gammaSwapA gammaSwapA_ok
  exact ⟨⟨s, h1, h2 0 0 _ _ (by decide) gammaSwapA_mix⟩, by decide, by decide⟩

/-- a history for `C126_gamma_bit_vector` on the same contents -/
example : GammaMix 2 0 (gammaSwapA 0) gammaSwapA [] 0 0 [.next, .swap 0 1, .next] [6, 1] := by
  refine .fresh (y := 6) rfl (by decide +kernel) (by decide +kernel) (by decide +kernel) (by decide +kernel) ?_
  exact .swap (.held (y := 1) rfl (by decide +kernel) (by decide +kernel) (by decide +kernel) .nil)

end Succinct
