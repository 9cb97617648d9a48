import Verif.Lemmas.ReleaseSeq
import Verif.Props.Gamma

/-! `gamma_vector` and `gamma_bit_vector` without assertions. -/
namespace Succinct
namespace Release
open Broadword Spec
open Machine (W at_)
open RSBitVector (bind_pure_some)

variable (ov : Word → Nat → Word)

theorem gv_high (xs : List Word) (hx : ∀ x ∈ xs, x + 1 ≠ 0) (v : GammaVec) (ev : GammaVector.build xs = some v) :
    ∃ b, Darray64.Good b (0 :: xs.map (glen 1)) ∧ v.high = ⟨b.nOnes, BitVector.ofRange (unary (0 :: xs.map (glen 1))), b.block, b.subblock⟩ := by
  obtain ⟨d0, e0, g0⟩ := Darray64.new_good
  obtain ⟨b0, eb, ib⟩ := Builder.new_inv 0 false
  obtain ⟨d1, e1, g1⟩ := Darray64.append1_good d0 [] 0 g0 (by omega) (by simp)
  obtain ⟨d2, b2, e2, g2, i2⟩ := GammaVector.loop_eq xs hx d1 b0 ([] ++ [0]) _ (by simp) g1 ib
  rw [List.nil_append, List.singleton_append] at g2
  obtain ⟨hv, eh, rh⟩ := BitVector.ofBuilder_rep _ _ g2.bits
  unfold GammaVector.build at ev
  rw [e0, bind_pure_some, eb, bind_pure_some, e1, bind_pure_some, e2, bind_pure_some] at ev
  simp only [Darray64.ofBuilder, eh, bind_pure_some] at ev
  simp only [Option.bind_eq_bind, Option.bind_eq_some_iff] at ev
  obtain ⟨_, e3, lv, _, ev⟩ := ev
  obtain rfl := Option.some.inj e3
  obtain rfl := Option.some.inj ev
  exact ⟨d2, g2, by rw [← BitVector.eq_ofRange rh]⟩

theorem gbv_high (xs : List Word) (hx : ∀ x ∈ xs, 2 ≤ (x + 2).toNat) (v : GammaVec) (ev : GammaBitVector.build xs = some v) :
    ∃ b, Darray64.Good b (0 :: xs.map GammaBitVector.hlen) ∧
      v.high = ⟨b.nOnes, BitVector.ofRange (unary (0 :: xs.map GammaBitVector.hlen)), b.block, b.subblock⟩ := by
  obtain ⟨d0, e0, g0⟩ := Darray64.new_good
  obtain ⟨b0, eb, ib⟩ := Builder.new_inv 0 false
  obtain ⟨d1, e1, g1⟩ := Darray64.append1_good d0 [] 0 g0 (by omega) (by simp)
  obtain ⟨d2, b2, e2, g2, i2⟩ := GammaBitVector.loop_eq xs hx d1 b0 ([] ++ [0]) _ (by simp) g1 ib
  rw [List.nil_append, List.singleton_append] at g2
  obtain ⟨hv, eh, rh⟩ := BitVector.ofBuilder_rep _ _ g2.bits
  unfold GammaBitVector.build at ev
  rw [e0, bind_pure_some, eb, bind_pure_some, e1, bind_pure_some, e2, bind_pure_some] at ev
  simp only [Darray64.ofBuilder, eh, bind_pure_some] at ev
  simp only [Option.bind_eq_bind, Option.bind_eq_some_iff] at ev
  obtain ⟨_, e3, lv, _, ev⟩ := ev
  obtain rfl := Option.some.inj e3
  obtain rfl := Option.some.inj ev
  exact ⟨d2, g2, by rw [← BitVector.eq_ofRange rh]⟩

/-- the last one ends the sequence -/
theorem onePos_last (ns : List Nat) (n : Nat) (h : ns.length = n + 1) : onePos ns n + 1 = (unary ns).length := by
  unfold onePos
  rw [unary_length, List.take_of_length_le (by omega)]; omega

theorem bitFn_out (l : List Bool) (q : Nat) (h : l.length ≤ q) : bitFn l q = false := by
  unfold bitFn; rw [List.getD_eq_getElem?_getD, List.getElem?_eq_none h]; rfl

theorem high_select {v : GammaVec} {c : Word} {hlen : Word → Nat} {xs : List Word} (g : v.Good c hlen xs) (s : Machine.GammaVec.Small v)
    (hul : (unary (0 :: xs.map hlen)).length ≤ 2^63)
    (hb : ∃ b, Darray64.Good b (0 :: xs.map hlen) ∧ v.high = ⟨b.nOnes, BitVector.ofRange (unary (0 :: xs.map hlen)), b.block, b.subblock⟩) (i : Word) :
    da64Select (Machine.GammaVec.enc v).high i = if i.toNat ≤ xs.length then some (W (onePos (0 :: xs.map hlen) i.toNat)) else none := by
  obtain ⟨b, gb, e⟩ := hb
  have hns : ∀ k ∈ (0 :: xs.map hlen), k ≤ 64 := by
    intro k hk
    rcases List.mem_cons.1 hk with a | a
    · omega
    · obtain ⟨x, x1, rfl⟩ := List.mem_map.1 a
      have := g.hl x x1; omega
  have h1 := s.high.blk
  have h2 := s.high.sub
  rw [e] at h1 h2
  have := da64Select_eq b _ gb hns hul h1 h2 i
  rw [← e] at this
  show da64Select (Machine.Darray64.enc v.high) i = _
  rw [this, List.length_cons, List.length_map]
  by_cases hi : i.toNat ≤ xs.length
  · rw [if_pos hi, if_pos (by omega)]
  · rw [if_neg hi, if_neg (by omega)]

/-- behind the last one the words hold zeros -/
theorem tail_word {v : GammaVec} {c : Word} {hlen : Word → Nat} {xs : List Word} (g : v.Good c hlen xs)
    (hul : (unary (0 :: xs.map hlen)).length ≤ 2^63) (w : Word)
    (hw : bvGetWord (Machine.GammaVec.enc v).high.bits (W (onePos (0 :: xs.map hlen) xs.length) + 1) = some w) : lsb1 w = 255 := by
  have hlast := onePos_last (0 :: xs.map hlen) xs.length (by simp)
  have hr := g.bits
  have e : v.high.bits = BitVector.ofRange (unary (0 :: xs.map hlen)) := BitVector.eq_ofRange hr
  have hpl := padded_length (unary (0 :: xs.map hlen))
  have hl := hr.len
  have e1 : W (onePos (0 :: xs.map hlen) xs.length) + 1 = W (unary (0 :: xs.map hlen)).length := by
    rw [show (1 : Word) = W 1 from rfl, ← Machine.W_add, hlast]
  rw [e1, show (Machine.GammaVec.enc v).high.bits = Machine.BitVector.enc v.high.bits from rfl, bvGetWord_whole _ (by
    show v.high.bits.bits.length ≤ _
    omega), e, ← enc_padded,
    Machine.BitVector.getWord_eq _ (Machine.BitVector.Fits.of_rep (BitVector.ofRange_rep _) (by omega)), Machine.W_toNat _ (by omega)] at hw
  by_cases hp : (unary (0 :: xs.map hlen)).length < (padded (unary (0 :: xs.map hlen))).length
  · obtain ⟨x, x1, x2⟩ := BitVector.getWord_eq (BitVector.ofRange_rep (padded (unary (0 :: xs.map hlen)))) _ hp
    rw [x1] at hw
    obtain rfl := Option.some.inj hw
    have : x = 0 := by
      apply BitVec.eq_of_getLsbD_eq
      intro i hi
      rw [x2 i hi, padded_bitFn, bitFn_out _ _ (by omega)]; simp
    rw [this]; decide +kernel
  · unfold BitVector.getWord at hw
    rw [assertP_none (by rw [(BitVector.ofRange_rep _).size]; exact hp)] at hw
    cases hw

theorem weak_avail {l : List Bool} {e : Enum} {p : Nat} (h : Enum.Weak l e p) : e.avail < 2^64 := by
  rcases h with h | h
  · have := h.avail; omega
  · have := h.2; omega

theorem gamma_out {v : GammaVec} {c : Word} {hlen : Word → Nat} {xs : List Word} (g : v.Good c hlen xs)
    (hul : (unary (0 :: xs.map hlen)).length ≤ 2^63) (e : GammaEnum) (he : e.Ok c hlen xs xs.length) :
    ∃ u, (Machine.GammaEnum.enc e).high = some u ∧ Machine.UEnum.next (Machine.GammaVec.enc v).high.bits.bits u = none := by
  obtain ⟨u, u1, u2⟩ := he.high
  have hlast := onePos_last (0 :: xs.map hlen) xs.length (by simp)
  rw [hlast] at u2
  exact ⟨_, by show e.high.map _ = _; rw [u1]; rfl, next_out g.bits.repr hul u _ u2 hul fun q hq => bitFn_out _ _ hq⟩

/-! ## `gamma_vector` -/

theorem gvGet_eq {v : GammaVec} {xs : List Word} (g : v.Good 1 (glen 1) xs) (s : Machine.GammaVec.Small v)
    (hul : (unary (0 :: xs.map (glen 1))).length ≤ 2^63)
    (hb : ∃ b, Darray64.Good b (0 :: xs.map (glen 1)) ∧ v.high = ⟨b.nOnes, BitVector.ofRange (unary (0 :: xs.map (glen 1))), b.block, b.subblock⟩) (i : Word) :
    gvGet ov (Machine.GammaVec.enc v) i = xs[i.toNat]? := by
  by_cases hi : i.toNat < xs.length
  · have := Machine.GammaVector.get_le s ov i.toNat _ (GammaVector.get_eq ov g i.toNat hi)
    rw [Machine.W_of] at this
    rw [gvGet_below ov _ _ _ this, List.getElem?_eq_getElem hi]; rfl
  · rw [List.getElem?_eq_none (by omega)]
    unfold gvGet
    rw [high_select g s hul hb]
    by_cases hi' : i.toNat ≤ xs.length
    · rw [if_pos hi', bind_pure_some]
      have hn : i.toNat = xs.length := by omega
      rw [hn]
      cases hw : bvGetWord (Machine.GammaVec.enc v).high.bits (W (onePos (0 :: xs.map (glen 1)) xs.length) + 1) with
      | none => rfl
      | some w =>
        rw [bind_pure_some]
        dsimp only
        rw [tail_word g hul w hw]; rfl
    · rw [if_neg hi']; rfl

theorem gvRun_eq {v : GammaVec} {xs : List Word} (g : v.Good 1 (glen 1) xs) (s : Machine.GammaVec.Small v)
    (hul : (unary (0 :: xs.map (glen 1))).length ≤ 2^63) : ∀ (k i : Nat) (e : GammaEnum), i ≤ xs.length → e.Ok 1 (glen 1) xs i →
    gvEnumRun (Machine.GammaVec.enc v) k (Machine.GammaEnum.enc e) = if i + k ≤ xs.length then some ((xs.drop i).take k) else none := by
  intro k
  induction k with
  | zero => intro i e hi he; rw [if_pos (by omega)]; simp [gvEnumRun]
  | succ k ih =>
    intro i e hi he
    unfold gvEnumRun
    by_cases hi' : i < xs.length
    · obtain ⟨e', e1, g1⟩ := GammaVector.enumNext_ok g i hi' e he
      have m1 := (Machine.GammaVector.enumNext_le s e (weak_avail he.low)).1 _ e1
      rw [gvEnumNext_below _ _ _ m1, bind_pure_some]
      dsimp only
      rw [ih (i+1) e' (by omega) g1]
      by_cases hk : i + (k + 1) ≤ xs.length
      · rw [if_pos hk, if_pos (by omega), bind_pure_some, List.drop_eq_getElem_cons hi', List.take_succ_cons]; rfl
      · rw [if_neg hk, if_neg (by omega)]; rfl
    · have hn : i = xs.length := by omega
      rw [hn] at he
      obtain ⟨u, u1, u2⟩ := gamma_out g hul e he
      rw [if_neg (by omega)]
      unfold gvEnumNext
      rw [u1, bind_pure_some, u2]; rfl

/-! ## `gamma_bit_vector` -/

theorem gbvGet_eq {v : GammaVec} {xs : List Word} (g : v.Good 2 GammaBitVector.hlen xs) (hp : ∀ x ∈ xs, 1 ≤ glen 2 x) (s : Machine.GammaVec.Small v)
    (hul : (unary (0 :: xs.map GammaBitVector.hlen)).length ≤ 2^63)
    (hb : ∃ b, Darray64.Good b (0 :: xs.map GammaBitVector.hlen) ∧
      v.high = ⟨b.nOnes, BitVector.ofRange (unary (0 :: xs.map GammaBitVector.hlen)), b.block, b.subblock⟩) (i : Word) :
    gbvGet ov (Machine.GammaVec.enc v) i = xs[i.toNat]? := by
  by_cases hi : i.toNat < xs.length
  · have := Machine.GammaBitVector.get_le s ov i.toNat _ (GammaBitVector.get_eq ov g hp i.toNat hi)
    rw [Machine.W_of] at this
    rw [gbvGet_below ov _ _ _ this, List.getElem?_eq_getElem hi]; rfl
  · rw [List.getElem?_eq_none (by omega)]
    unfold gbvGet
    rw [high_select g s hul hb]
    by_cases hi' : i.toNat ≤ xs.length
    · rw [if_pos hi', bind_pure_some]
      have hn : i.toNat = xs.length := by omega
      rw [hn]
      cases hw : bvGetWord (Machine.GammaVec.enc v).high.bits (W (onePos (0 :: xs.map GammaBitVector.hlen) xs.length) + 1) with
      | none => rfl
      | some w =>
        rw [bind_pure_some]
        dsimp only
        rw [tail_word g hul w hw]
        have : shl 1 (BitVec.ofNat 64 255 + 1 : Word).toNat = none := by decide +kernel
        rw [this]
        cases bvGetBits ov (Machine.GammaVec.enc v).low (W (onePos (0 :: xs.map GammaBitVector.hlen) xs.length)) (BitVec.ofNat 64 255 + 1) <;> rfl
    · rw [if_neg hi']; rfl

section
variable {v : GammaVec} {xs : List Word} (g : v.Good 2 GammaBitVector.hlen xs) (hp : ∀ x ∈ xs, 1 ≤ glen 2 x) (s : Machine.GammaVec.Small v)
  (hul : (unary (0 :: xs.map GammaBitVector.hlen)).length ≤ 2^63)
include g hp s hul

theorem gbvNext_eq (i : Nat) (e : GammaEnum) (hi : i ≤ xs.length) (he : e.Ok 2 GammaBitVector.hlen xs i) :
    (∀ h : i < xs.length, ∃ e', gbvEnumNext (Machine.GammaVec.enc v) (Machine.GammaEnum.enc e) = some (xs[i], Machine.GammaEnum.enc e') ∧
      e'.Ok 2 GammaBitVector.hlen xs (i + 1)) ∧
    (i = xs.length → gbvEnumNext (Machine.GammaVec.enc v) (Machine.GammaEnum.enc e) = none) := by
  constructor
  · intro hi'
    obtain ⟨e', e1, g1⟩ := GammaBitVector.enumNext_ok g hp i hi' e he
    have m1 := (Machine.GammaBitVector.enumNext_le s e (weak_avail he.low)).1 _ e1
    exact ⟨e', gbvEnumNext_below _ _ _ m1, g1⟩
  · intro hn
    rw [hn] at he
    obtain ⟨u, u1, u2⟩ := gamma_out g hul e he
    unfold gbvEnumNext
    rw [u1, bind_pure_some, u2]; rfl

theorem gbvSkip_eq : ∀ (k i : Nat) (e : GammaEnum), i ≤ xs.length → e.Ok 2 GammaBitVector.hlen xs i →
    (i + k ≤ xs.length → ∃ e', gbvEnumSkip (Machine.GammaVec.enc v) k (Machine.GammaEnum.enc e) = some (Machine.GammaEnum.enc e') ∧
      e'.Ok 2 GammaBitVector.hlen xs (i + k)) ∧
    (¬ i + k ≤ xs.length → gbvEnumSkip (Machine.GammaVec.enc v) k (Machine.GammaEnum.enc e) = none) := by
  intro k
  induction k with
  | zero => intro i e hi he; exact ⟨fun _ => ⟨e, rfl, he⟩, fun h => absurd hi h⟩
  | succ k ih =>
    intro i e hi he
    obtain ⟨n1, n2⟩ := gbvNext_eq g hp s hul i e hi he
    unfold gbvEnumSkip
    by_cases hi' : i < xs.length
    · obtain ⟨e', e1, e2⟩ := n1 hi'
      obtain ⟨k1, k2⟩ := ih (i+1) e' hi' e2
      rw [e1, bind_pure_some]
      dsimp only
      rw [show i + 1 + k = i + (k + 1) by omega] at k1 k2
      exact ⟨k1, k2⟩
    · rw [n2 (by omega)]
      exact ⟨fun h => by omega, fun _ => rfl⟩

theorem gbvRun_eq : ∀ (ops : List (Option Word)) (i : Nat) (e : GammaEnum), i ≤ xs.length → e.Ok 2 GammaBitVector.hlen xs i →
    gbvEnumRun (Machine.GammaVec.enc v) ops (Machine.GammaEnum.enc e) = fwdSpec xs (ops.map (Option.map BitVec.toNat)) i := by
  intro ops
  induction ops with
  | nil => intro i e hi he; rfl
  | cons op ops ih =>
    intro i e hi he
    cases op with
    | none =>
      obtain ⟨n1, n2⟩ := gbvNext_eq g hp s hul i e hi he
      rw [List.map_cons, Option.map_none]
      unfold gbvEnumRun fwdSpec
      by_cases hi' : i < xs.length
      · obtain ⟨e', e1, e2⟩ := n1 hi'
        rw [e1, bind_pure_some, List.getElem?_eq_getElem hi', bind_pure_some]
        dsimp only
        rw [ih (i+1) e' hi' e2]
      · rw [n2 (by omega), List.getElem?_eq_none (by omega)]; rfl
    | some k =>
      obtain ⟨n1, n2⟩ := gbvSkip_eq g hp s hul k.toNat i e hi he
      rw [List.map_cons, Option.map_some]
      unfold gbvEnumRun fwdSpec
      by_cases hi' : i + k.toNat ≤ xs.length
      · obtain ⟨e', e1, e2⟩ := n1 hi'
        rw [e1, bind_pure_some, if_pos hi', ih _ e' hi' e2]
      · rw [n2 hi', if_neg hi']; rfl

end

/-- an enumerator that was not initialised can only be asked for nothing -/
theorem gbvRun_dead (v : Machine.GammaVec) (xs : List Word) (ops : List (Option Word)) (e : Machine.GammaEnum) (he : e.high = none) :
    gbvEnumRun v ops e = fwdSpec xs (ops.map (Option.map BitVec.toNat)) xs.length := by
  induction ops with
  | nil => rfl
  | cons op ops ih =>
    have hn : gbvEnumNext v e = none := by unfold gbvEnumNext; rw [he]; rfl
    cases op with
    | none =>
      rw [List.map_cons, Option.map_none]
      unfold gbvEnumRun fwdSpec
      rw [hn, List.getElem?_eq_none (Nat.le_refl _)]; rfl
    | some k =>
      rw [List.map_cons, Option.map_some]
      unfold gbvEnumRun fwdSpec
      cases hk : k.toNat with
      | zero =>
        rw [show gbvEnumSkip v 0 e = some e from rfl, bind_pure_some, Nat.add_zero, if_pos (Nat.le_refl _), ih]
      | succ j =>
        rw [if_neg (by omega)]
        unfold gbvEnumSkip
        rw [hn]; rfl

end Release
end Succinct
