import Verif.Model.Gamma
import Verif.Lemmas.EFList

/-! gamma vectors -/
namespace Succinct
open Spec Broadword

theorem onePos_succ (ks : List Nat) (i : Nat) (h : i + 1 < ks.length) : onePos ks (i+1) = onePos ks i + 1 + ks[i+1] := by
  unfold onePos
  rw [List.take_succ_eq_append_getElem (i := i+1) h, List.sum_append, List.sum_singleton]; omega

/-- the gap between consecutive ones of the unary code -/
theorem unary_gap (ks : List Nat) (i : Nat) (h : i + 1 < ks.length) :
    IsSucc true (unary ks) (onePos ks i + 1) (onePos ks (i+1)) := by
  obtain ⟨a1, a2⟩ := (isSelect1_iff _ _ _).1 (isSelect1_onePos ks i (by omega))
  obtain ⟨b1, b2⟩ := (isSelect1_iff _ _ _).1 (isSelect1_onePos ks (i+1) h)
  have := onePos_succ ks i h
  refine ⟨by omega, (bitFn_eq_true _ _).1 b1, ?_⟩
  intro r h1 h2 h3
  have h3 := (bitFn_eq_true _ _).2 h3
  have c1 := cnt_lt_of_true (show onePos ks i < r by omega) a1
  have c2 := cnt_lt_of_true h2 h3
  omega

theorem lsb1_gap {v : BitVector} {l : List Bool} (hr : Rep v l) (p q : Nat) (h : IsSucc true l p q) (hd : q < p + 64) :
    ∃ w, v.getWord p = some w ∧ lsb1 w = some (q - p) := by
  obtain ⟨h1, h2, h3⟩ := h
  have hq := (bitFn_eq_true _ _).2 h2
  have hlt := bitFn_lt _ _ hq
  obtain ⟨w, e, hw⟩ := BitVector.getWord_eq hr p (by omega)
  have hb : w.getLsbD (q - p) = true := by rw [hw _ (by omega), show p + (q - p) = q by omega, hq]
  have hl : lsb w = some (q - p) := by
    rw [lsb_some]
    refine ⟨by omega, hb, ?_⟩
    intro j hj
    rw [hw j (by omega)]
    cases hf : bitFn l (p+j) with
    | false => rfl
    | true => exact absurd ((bitFn_eq_true _ _).1 hf) (h3 _ (by omega) (by omega))
  refine ⟨w, e, ?_⟩
  unfold lsb1
  rw [assertP_eq _ (by intro h0; rw [h0] at hb; simp at hb), bind_pure_some, hl]

/-- codes for `gamma_vector` (`c = 1`) and `gamma_bit_vector` (`c = 2`) -/
def glen (c x : Word) : Nat := (msb (x + c)).getD 0
def gcode (c x : Word) : List Bool := tailBits (glen c x) (x + c)

theorem gcode_length (c x : Word) : (gcode c x).length = glen c x := by simp [gcode, tailBits]

theorem glen_spec (c x : Word) (hx : x + c ≠ 0) : msb1 (x + c) = some (glen c x) ∧ IsMsb (x + c) (glen c x) := by
  unfold msb1 glen
  rw [assertP_eq _ hx, bind_pure_some]
  cases h : msb (x + c) with
  | none => exact absurd ((msb_none _).1 h) hx
  | some l =>
    obtain ⟨h1, h2, h3⟩ := (msb_some _ _).1 h
    refine ⟨rfl, h1, h2, fun j hj => ?_⟩
    by_cases hj' : j < 64
    · exact h3 j hj hj'
    · exact BitVec.getLsbD_of_ge _ _ (by omega)

/-- a stored sequence: `hlen` is the length in the high part -/
structure GammaVec.Good (v : GammaVec) (c : Word) (hlen : Word → Nat) (xs : List Word) : Prop where
  nz : ∀ x ∈ xs, x + c ≠ 0
  hl : ∀ x ∈ xs, hlen x < 64
  ones : v.high.numOnes = xs.length + 1
  bits : Rep v.high.bits (unary (0 :: xs.map hlen))
  low : Rep v.low (xs.flatMap (gcode c))
  sel : ∀ i, i ≤ xs.length → v.high.select i = some (onePos (0 :: xs.map hlen) i)

/-- start of the code of value `i` in the low part -/
def goff (c : Word) (xs : List Word) (i : Nat) : Nat := ((xs.take i).flatMap (gcode c)).length

theorem goff_succ (c : Word) (xs : List Word) (i : Nat) (h : i < xs.length) : goff c xs (i+1) = goff c xs i + glen c xs[i] := by
  unfold goff; rw [flatMap_take_succ _ _ _ h, gcode_length]

theorem goff_le (c : Word) (xs : List Word) (i : Nat) : goff c xs i ≤ (xs.flatMap (gcode c)).length := by
  have := List.take_append_drop i xs
  have h := congrArg (fun ys => (ys.flatMap (gcode c)).length) this
  simp only [List.flatMap_append, List.length_append] at h
  unfold goff; omega

namespace GammaVec.Good
variable {v : GammaVec} {c : Word} {hlen : Word → Nat} {xs : List Word} (ov : Word → Nat → Word)

theorem size_eq (h : Good v c hlen xs) : v.size = some xs.length := by
  unfold GammaVec.size; rw [h.ones, subU_eq _ _ (by omega)]; rfl

theorem len (xs : List Word) (hlen : Word → Nat) : (0 :: xs.map hlen).length = xs.length + 1 := by simp

theorem step (i : Nat) (hi : i < xs.length) :
    onePos (0 :: xs.map hlen) (i+1) = onePos (0 :: xs.map hlen) i + 1 + hlen xs[i] := by
  rw [onePos_succ _ _ (by rw [len]; omega)]; simp

theorem onePos_zero : onePos (0 :: xs.map hlen) 0 = 0 := by rw [onePos_cons_zero]

/-- position and length read back -/
theorem read (h : Good v c hlen xs) (i : Nat) (hi : i < xs.length) :
    v.high.bits.access (onePos (0 :: xs.map hlen) i) = some true ∧
    ∃ w, v.high.bits.getWord (onePos (0 :: xs.map hlen) i + 1) = some w ∧ lsb1 w = some (hlen xs[i]) := by
  obtain ⟨a1, a2⟩ := (isSelect1_iff _ _ _).1 (isSelect1_onePos (0 :: xs.map hlen) i (by rw [len]; omega))
  have hs := step (hlen := hlen) i hi
  have hl := h.hl _ (List.getElem_mem hi)
  refine ⟨by rw [BitVector.access_eq h.bits _ (bitFn_lt _ _ a1), a1], ?_⟩
  obtain ⟨w, w1, w2⟩ := lsb1_gap h.bits _ _ (unary_gap (0 :: xs.map hlen) i (by rw [len]; omega)) (by omega)
  exact ⟨w, w1, by rw [w2]; congr 1; omega⟩

theorem low_read (h : Good v c hlen xs) (i : Nat) (hi : i < xs.length) :
    ∃ x, v.low.getBits ov (goff c xs i) (glen c xs[i]) = some x ∧ (1 : Word) <<< (glen c xs[i]) ||| x = xs[i] + c := by
  obtain ⟨_, hm⟩ := glen_spec c xs[i] (h.nz _ (List.getElem_mem hi))
  have h1 := goff_succ c xs i hi
  have h2 := goff_le c xs (i+1)
  obtain ⟨x, ex, bx⟩ := BitVector.getBits_eq ov h.low (goff c xs i) (glen c xs[i]) (by have := hm.1; omega) (by omega)
  refine ⟨x, ex, tail_back _ _ hm x ?_⟩
  intro t
  rw [bx]
  by_cases ht : t < glen c xs[i]
  · unfold goff
    rw [bitFn_flatMap_code xs (gcode c) i t hi (by rw [gcode_length]; exact ht)]; rfl
  · simp [ht]

theorem low_take (h : Good v c hlen xs) (i : Nat) (hi : i < xs.length) (e : Enum) (hw : Enum.Weak (xs.flatMap (gcode c)) e (goff c xs i)) :
    ∃ x e', Enum.take v.low e (glen c xs[i]) = some (x, e') ∧ x ||| (1 : Word) <<< (glen c xs[i]) = xs[i] + c ∧
      Enum.Weak (xs.flatMap (gcode c)) e' (goff c xs (i+1)) := by
  obtain ⟨_, hm⟩ := glen_spec c xs[i] (h.nz _ (List.getElem_mem hi))
  have h1 := goff_succ c xs i hi
  have h2 := goff_le c xs (i+1)
  obtain ⟨w, e', e1, e2, e3, _⟩ := Enum.take_good h.low e (goff c xs i) (glen c xs[i]) hw (by have := hm.1; omega) (by omega)
  refine ⟨w, e', e1, ?_, by rw [h1]; exact e3⟩
  rw [BitVec.or_comm]
  apply tail_back _ _ hm w
  intro t
  rw [← BitVec.testBit_toNat, e2, testBit_bitsToNat, bitFn_take, bitFn_drop]
  by_cases ht : t < glen c xs[i]
  · unfold goff
    simp only []
    rw [bitFn_flatMap_code xs (gcode c) i t hi (by rw [gcode_length]; exact ht)]; rfl
  · simp [ht]

end GammaVec.Good

/-- state of an enumerator about to return value `i` -/
structure GammaEnum.Ok (c : Word) (hlen : Word → Nat) (xs : List Word) (e : GammaEnum) (i : Nat) : Prop where
  idx : e.idx = i
  pos : e.pos = onePos (0 :: xs.map hlen) i
  high : ∃ u, e.high = some u ∧ UEnum.Good (unary (0 :: xs.map hlen)) u (onePos (0 :: xs.map hlen) i + 1)
  low : Enum.Weak (xs.flatMap (gcode c)) e.low (goff c xs i)

namespace GammaVector

theorem loop_eq (xs : List Word) (hx : ∀ x ∈ xs, x + 1 ≠ 0) (high : Darray64Builder) (low : Builder) (ks : List Nat) (l : List Bool)
    (hk : ∀ k ∈ ks, k ≤ 64) (hh : Darray64.Good high ks) (hl : Succinct.Inv low l) :
    ∃ high' low', loop xs high low = some (high', low') ∧ Darray64.Good high' (ks ++ xs.map (glen 1)) ∧
      Succinct.Inv low' (l ++ xs.flatMap (gcode 1)) := by
  induction xs generalizing high low ks l with
  | nil => exact ⟨high, low, rfl, by simpa using hh, by simpa using hl⟩
  | cons x xs ih =>
    obtain ⟨e, hm⟩ := glen_spec 1 x (hx x (by simp))
    have hlt := hm.1
    obtain ⟨b1, e1, i1⟩ := Builder.appendBits_inv low l hl _ (glen 1 x) (tail_fits _ _ hm)
    obtain ⟨h1, e2, i2⟩ := Darray64.append1_good high ks (glen 1 x) hh (by omega) hk
    obtain ⟨h2, l2, e3, g3, g4⟩ := ih (fun y hy => hx y (by simp [hy])) h1 b1 (ks ++ [glen 1 x]) _ (by
      intro k hk'
      rcases List.mem_append.1 hk' with a | a
      · exact hk k a
      · rw [List.mem_singleton.1 a]; omega) i2 i1
    refine ⟨h2, l2, ?_, by simpa using g3, by rw [List.flatMap_cons, ← List.append_assoc]; exact g4⟩
    unfold loop
    simp only []
    rw [e, bind_pure_some, shl_eq _ _ hlt, bind_pure_some, e1, bind_pure_some, e2, bind_pure_some, e3]

theorem build_good (xs : List Word) (hx : ∀ x ∈ xs, x ≠ BitVec.allOnes 64) :
    ∃ v, build xs = some v ∧ v.Good 1 (glen 1) xs := by
  have hnz : ∀ x ∈ xs, x + 1 ≠ 0 := by
    intro x hm e
    obtain ⟨l, _, h1, h2, _⟩ := msb_succ x (hx x hm)
    rw [e] at h2; simp at h2
  have hlen : ∀ x ∈ xs, glen 1 x < 64 := fun x hm => (glen_spec 1 x (hnz x hm)).2.1
  obtain ⟨d0, e0, g0⟩ := Darray64.new_good
  obtain ⟨b0, eb, ib⟩ := Builder.new_inv 0 false
  obtain ⟨d1, e1, g1⟩ := Darray64.append1_good d0 [] 0 g0 (by omega) (by simp)
  obtain ⟨d2, b2, e2, g2, i2⟩ := loop_eq xs hnz d1 b0 ([] ++ [0]) _ (by simp) g1 ib
  rw [List.replicate_zero, List.nil_append] at i2
  rw [List.nil_append, List.singleton_append] at g2
  obtain ⟨lv, el, rl⟩ := BitVector.ofBuilder_rep _ _ i2
  obtain ⟨hv, eh, rh⟩ := BitVector.ofBuilder_rep _ _ g2.bits
  refine ⟨⟨⟨d2.nOnes, hv, d2.block, d2.subblock⟩, lv⟩, ?_, hnz, hlen, ?_, rh, rl, ?_⟩
  · unfold build
    rw [e0, bind_pure_some, eb, bind_pure_some, e1, bind_pure_some, e2, bind_pure_some]
    simp only []
    unfold Darray64.ofBuilder
    simp only [eh, bind_pure_some, el]
    rfl
  · show d2.nOnes = _
    rw [g2.n]; simp
  · intro i hi
    apply Darray64.select_eq _ d2 _ g2 (by rw [BitVector.eq_ofRange rh])
    · intro k hk
      rcases List.mem_cons.1 hk with a | a
      · omega
      · obtain ⟨x, x1, rfl⟩ := List.mem_map.1 a
        have := hlen x x1; omega
    · simp; omega

variable {v : GammaVec} {xs : List Word} (ov : Word → Nat → Word)

theorem off_eq (i : Nat) (hi : i ≤ xs.length) : onePos (0 :: xs.map (glen 1)) i = goff 1 xs i + i := by
  induction i with
  | zero => rw [onePos_cons_zero]; simp [goff]
  | succ i ih => rw [GammaVec.Good.step i (by omega), ih (by omega), goff_succ 1 xs i (by omega)]; omega

theorem get_eq (h : v.Good 1 (glen 1) xs) (i : Nat) (hi : i < xs.length) : get ov v i = some xs[i] := by
  obtain ⟨a, w, w1, w2⟩ := h.read i hi
  obtain ⟨x, x1, x2⟩ := h.low_read ov i hi
  have ho := off_eq (xs := xs) i (by omega)
  unfold get
  rw [h.sel i (by omega), bind_pure_some]
  unfold retrieve
  rw [a, bind_pure_some, assertP_eq _ rfl, bind_pure_some, w1, bind_pure_some, w2, bind_pure_some,
    shl_eq _ _ (h.hl _ (List.getElem_mem hi)), bind_pure_some, subU_eq _ _ (by omega), bind_pure_some,
    show onePos (0 :: xs.map (glen 1)) i - i = goff 1 xs i by omega, x1, bind_pure_some, x2, BitVec.add_sub_cancel]; rfl

theorem enumNew_ok (h : v.Good 1 (glen 1) xs) (i : Nat) (hi : i < xs.length) :
    ∃ e, enumNew v i = some e ∧ e.Ok 1 (glen 1) xs i := by
  have ho := off_eq (xs := xs) i (by omega)
  have hg := unary_gap (0 :: xs.map (glen 1)) i (by simp; omega)
  have hlt := bitFn_lt _ _ ((bitFn_eq_true _ _).2 hg.2.1)
  obtain ⟨u, u1, u2, _⟩ := UEnum.new_good h.bits.repr (onePos (0 :: xs.map (glen 1)) i + 1) (by have := hg.1; omega)
  unfold enumNew
  rw [h.size_eq, bind_pure_some, if_pos hi, h.sel i (by omega), bind_pure_some, u1, bind_pure_some, subU_eq _ _ (by omega),
    bind_pure_some]
  refine ⟨_, rfl, rfl, rfl, ⟨u, rfl, u2⟩, ?_⟩
  simp only []
  rw [show onePos (0 :: xs.map (glen 1)) i - i = goff 1 xs i by omega]
  exact .inl (Enum.new_good _)

theorem enumNext_ok (h : v.Good 1 (glen 1) xs) (i : Nat) (hi : i < xs.length) (e : GammaEnum) (he : e.Ok 1 (glen 1) xs i) :
    ∃ e', enumNext v e = some (xs[i], e') ∧ e'.Ok 1 (glen 1) xs (i+1) := by
  obtain ⟨u, u1, u2⟩ := he.high
  obtain ⟨u', v1, v2⟩ := UEnum.next_good h.bits.repr u _ _ u2 (unary_gap (0 :: xs.map (glen 1)) i (by simp; omega))
  have hs := GammaVec.Good.step (hlen := glen 1) i hi
  obtain ⟨x, e', t1, t2, t3⟩ := h.low_take i hi e.low he.low
  unfold enumNext
  rw [h.size_eq, bind_pure_some, assertP_eq _ (by rw [he.idx]; omega), bind_pure_some, u1, bind_pure_some, v1, bind_pure_some]
  simp only []
  rw [he.pos, subU_eq _ _ (by omega), bind_pure_some, subU_eq _ _ (by omega), bind_pure_some,
    show onePos (0 :: xs.map (glen 1)) (i+1) - onePos (0 :: xs.map (glen 1)) i - 1 = glen 1 xs[i] by omega, t1, bind_pure_some]
  simp only []
  rw [shl_eq _ _ (h.hl _ (List.getElem_mem hi)), bind_pure_some, t2, BitVec.add_sub_cancel]
  exact ⟨_, rfl, by simp [he.idx], rfl, ⟨u', rfl, v2⟩, t3⟩

theorem enumRun_ok (h : v.Good 1 (glen 1) xs) (k i : Nat) (hi : i + k ≤ xs.length) (e : GammaEnum) (he : e.Ok 1 (glen 1) xs i) :
    enumRun v k e = some ((xs.drop i).take k) := by
  induction k generalizing i e with
  | zero => simp [enumRun]
  | succ k ih =>
    obtain ⟨e', e1, g1⟩ := enumNext_ok h i (by omega) e he
    unfold enumRun
    rw [e1, bind_pure_some]
    simp only []
    rw [ih (i+1) (by omega) e' g1, bind_pure_some, List.drop_eq_getElem_cons (show i < xs.length by omega), List.take_succ_cons]; rfl

end GammaVector

namespace GammaBitVector

/-- high length of `gamma_bit_vector` -/
def hlen (x : Word) : Nat := glen 2 x - 1

theorem glen_pos (x : Word) (hx : 2 ≤ (x + 2).toNat) : x + 2 ≠ 0 ∧ 1 ≤ glen 2 x := by
  have h0 : x + 2 ≠ 0 := by intro e; rw [e] at hx; simp at hx
  obtain ⟨_, h1, h2, h3⟩ := glen_spec 2 x h0
  refine ⟨h0, ?_⟩
  rcases Nat.eq_zero_or_pos (glen 2 x) with a | a
  · exfalso
    have : (x+2).toNat < 2^1 := by
      apply Nat.lt_pow_two_of_testBit
      intro j hj
      rw [BitVec.testBit_toNat]; exact h3 j (by omega)
    omega
  · exact a

theorem loop_eq (xs : List Word) (hx : ∀ x ∈ xs, 2 ≤ (x + 2).toNat) (high : Darray64Builder) (low : Builder) (ks : List Nat) (l : List Bool)
    (hk : ∀ k ∈ ks, k ≤ 64) (hh : Darray64.Good high ks) (hl : Succinct.Inv low l) :
    ∃ high' low', loop xs high low = some (high', low') ∧ Darray64.Good high' (ks ++ xs.map hlen) ∧
      Succinct.Inv low' (l ++ xs.flatMap (gcode 2)) := by
  induction xs generalizing high low ks l with
  | nil => exact ⟨high, low, rfl, by simpa using hh, by simpa using hl⟩
  | cons x xs ih =>
    obtain ⟨hn, hp⟩ := glen_pos x (hx x (by simp))
    obtain ⟨e, hm⟩ := glen_spec 2 x hn
    have hlt := hm.1
    have hdef : hlen x = glen 2 x - 1 := rfl
    obtain ⟨b1, e1, i1⟩ := Builder.appendBits_inv low l hl _ (glen 2 x) (tail_fits _ _ hm)
    obtain ⟨h1, e2, i2⟩ := Darray64.append1_good high ks (glen 2 x - 1) hh (by omega) hk
    obtain ⟨h2, l2, e3, g3, g4⟩ := ih (fun y hy => hx y (by simp [hy])) h1 b1 (ks ++ [hlen x]) _ (by
      intro k hk'
      rcases List.mem_append.1 hk' with a | a
      · exact hk k a
      · rw [List.mem_singleton.1 a]; omega) i2 i1
    refine ⟨h2, l2, ?_, by simpa using g3, by rw [List.flatMap_cons, ← List.append_assoc]; exact g4⟩
    unfold loop
    simp only []
    rw [e, bind_pure_some, assertP_eq _ (show glen 2 x > 0 from hp), bind_pure_some, e2, bind_pure_some, shl_eq _ _ hlt, bind_pure_some, e1, bind_pure_some, e3]

theorem build_good (xs : List Word) (hx : ∀ x ∈ xs, x.toNat < 2^64 - 2) :
    ∃ v, build xs = some v ∧ v.Good 2 hlen xs ∧ ∀ x ∈ xs, 1 ≤ glen 2 x := by
  have h2 : ∀ x ∈ xs, 2 ≤ (x + 2).toNat := by
    intro x hm
    have := hx x hm
    rw [BitVec.toNat_add, show (2 : Word).toNat = 2 from rfl, Nat.mod_eq_of_lt (by omega)]; omega
  have hlen' : ∀ x ∈ xs, hlen x < 64 := fun x hm => by
    have := (glen_spec 2 x (glen_pos x (h2 x hm)).1).2.1
    unfold hlen; omega
  obtain ⟨d0, e0, g0⟩ := Darray64.new_good
  obtain ⟨b0, eb, ib⟩ := Builder.new_inv 0 false
  obtain ⟨d1, e1, g1⟩ := Darray64.append1_good d0 [] 0 g0 (by omega) (by simp)
  obtain ⟨d2, b2, e2, g2, i2⟩ := loop_eq xs h2 d1 b0 ([] ++ [0]) _ (by simp) g1 ib
  rw [List.replicate_zero, List.nil_append] at i2
  rw [List.nil_append, List.singleton_append] at g2
  obtain ⟨lv, el, rl⟩ := BitVector.ofBuilder_rep _ _ i2
  obtain ⟨hv, eh, rh⟩ := BitVector.ofBuilder_rep _ _ g2.bits
  refine ⟨⟨⟨d2.nOnes, hv, d2.block, d2.subblock⟩, lv⟩, ?_, ⟨fun x hm => (glen_pos x (h2 x hm)).1, hlen', ?_, rh, rl, ?_⟩,
    fun x hm => (glen_pos x (h2 x hm)).2⟩
  · unfold build
    rw [e0, bind_pure_some, eb, bind_pure_some, e1, bind_pure_some, e2, bind_pure_some]
    simp only []
    unfold Darray64.ofBuilder
    simp only [eh, bind_pure_some, el]
    rfl
  · show d2.nOnes = _
    rw [g2.n]; simp
  · intro i hi
    apply Darray64.select_eq _ d2 _ g2 (by rw [BitVector.eq_ofRange rh])
    · intro k hk
      rcases List.mem_cons.1 hk with a | a
      · omega
      · obtain ⟨x, x1, rfl⟩ := List.mem_map.1 a
        have := hlen' x x1; omega
    · simp; omega

variable {v : GammaVec} {xs : List Word} (ov : Word → Nat → Word)

theorem off_eq (hp : ∀ x ∈ xs, 1 ≤ glen 2 x) (i : Nat) (hi : i ≤ xs.length) : onePos (0 :: xs.map hlen) i = goff 2 xs i := by
  induction i with
  | zero => rw [onePos_cons_zero]; simp [goff]
  | succ i ih =>
    have := hp xs[i] (List.getElem_mem (by omega))
    rw [GammaVec.Good.step i (by omega), ih (by omega), goff_succ 2 xs i (by omega)]; unfold hlen; omega

theorem get_eq (h : v.Good 2 hlen xs) (hp : ∀ x ∈ xs, 1 ≤ glen 2 x) (i : Nat) (hi : i < xs.length) : get ov v i = some xs[i] := by
  obtain ⟨a, w, w1, w2⟩ := h.read i hi
  obtain ⟨x, x1, x2⟩ := h.low_read ov i hi
  have ho := off_eq hp i (by omega)
  have hl := hp xs[i] (List.getElem_mem hi)
  have hs : hlen xs[i] + 1 = glen 2 xs[i] := by unfold hlen; omega
  have hlt := (glen_spec 2 xs[i] (h.nz _ (List.getElem_mem hi))).2.1
  unfold get
  rw [h.sel i (by omega), bind_pure_some]
  unfold retrieve
  rw [a, bind_pure_some, assertP_eq _ rfl, bind_pure_some, w1, bind_pure_some, w2, bind_pure_some, hs, ho, x1, bind_pure_some,
    shl_eq _ _ hlt, bind_pure_some, x2, BitVec.add_sub_cancel]; rfl

theorem enumNew_ok (h : v.Good 2 hlen xs) (hp : ∀ x ∈ xs, 1 ≤ glen 2 x) (i : Nat) (hi : i < xs.length) :
    ∃ e, enumNew v i = some e ∧ e.Ok 2 hlen xs i := by
  have ho := off_eq hp i (by omega)
  have hg := unary_gap (0 :: xs.map hlen) i (by simp; omega)
  have hlt := bitFn_lt _ _ ((bitFn_eq_true _ _).2 hg.2.1)
  obtain ⟨u, u1, u2, _⟩ := UEnum.new_good h.bits.repr (onePos (0 :: xs.map hlen) i + 1) (by have := hg.1; omega)
  unfold enumNew
  rw [h.size_eq, bind_pure_some, if_pos hi, h.sel i (by omega), bind_pure_some, u1, bind_pure_some]
  refine ⟨_, rfl, rfl, rfl, ⟨u, rfl, u2⟩, ?_⟩
  simp only []
  rw [ho]
  exact .inl (Enum.new_good _)

theorem enumNext_ok (h : v.Good 2 hlen xs) (hp : ∀ x ∈ xs, 1 ≤ glen 2 x) (i : Nat) (hi : i < xs.length) (e : GammaEnum)
    (he : e.Ok 2 hlen xs i) : ∃ e', enumNext v e = some (xs[i], e') ∧ e'.Ok 2 hlen xs (i+1) := by
  obtain ⟨u, u1, u2⟩ := he.high
  obtain ⟨u', v1, v2⟩ := UEnum.next_good h.bits.repr u _ _ u2 (unary_gap (0 :: xs.map hlen) i (by simp; omega))
  have hs := GammaVec.Good.step (hlen := hlen) i hi
  have hl := hp xs[i] (List.getElem_mem hi)
  have hs' : hlen xs[i] + 1 = glen 2 xs[i] := by unfold hlen; omega
  have hlt := (glen_spec 2 xs[i] (h.nz _ (List.getElem_mem hi))).2.1
  obtain ⟨x, e', t1, t2, t3⟩ := h.low_take i hi e.low he.low
  unfold enumNext
  rw [h.size_eq, bind_pure_some, assertP_eq _ (by rw [he.idx]; omega), bind_pure_some, u1, bind_pure_some, v1, bind_pure_some]
  simp only []
  rw [he.pos, subU_eq _ _ (by omega), bind_pure_some, subU_eq _ _ (by omega), bind_pure_some,
    show onePos (0 :: xs.map hlen) (i+1) - onePos (0 :: xs.map hlen) i - 1 + 1 = glen 2 xs[i] by omega, t1, bind_pure_some]
  simp only []
  rw [shl_eq _ _ hlt, bind_pure_some, t2, BitVec.add_sub_cancel]
  exact ⟨_, rfl, by simp [he.idx], rfl, ⟨u', rfl, v2⟩, t3⟩

theorem enumSkip_ok (h : v.Good 2 hlen xs) (hp : ∀ x ∈ xs, 1 ≤ glen 2 x) (k i : Nat) (hi : i + k ≤ xs.length) (e : GammaEnum)
    (he : e.Ok 2 hlen xs i) : ∃ e', enumSkip v k e = some e' ∧ e'.Ok 2 hlen xs (i+k) := by
  induction k generalizing i e with
  | zero => exact ⟨e, rfl, he⟩
  | succ k ih =>
    obtain ⟨e', e1, g1⟩ := enumNext_ok h hp i (by omega) e he
    obtain ⟨e2, e3, g3⟩ := ih (i+1) (by omega) e' g1
    refine ⟨e2, ?_, by rw [show i + (k+1) = i+1+k by omega]; exact g3⟩
    unfold enumSkip
    rw [e1, bind_pure_some]; exact e3

end GammaBitVector
end Succinct
