import Verif.Lemmas.MachineRS
import Verif.Props.BitVector

/-! # The 64-bit transcription of `bit_vector_builder` follows the model -/
namespace Succinct
namespace Machine
open Broadword
open Succinct.RSBitVector (bind_pure_some)

theorem W_mod64 (n : Nat) : W n % 64 = W (n % 64) := by
  apply BitVec.eq_of_toNat_eq
  rw [mod64, W_toNat (n % 64) (by omega)]
  simp only [BitVec.toNat_ofNat]; omega

theorem wordsFor_eq (n : Nat) (h : n + 63 < 2^64) : wordsFor (W n) = W (Succinct.wordsFor n) := by
  unfold wordsFor ceilDiv Succinct.wordsFor
  rw [show (64 : Word) = W 64 from rfl, show (1 : Word) = W 1 from rfl, ← W_add, ← W_sub _ _ (by omega), ← W_div _ _ (by omega) (by omega)]

namespace Builder

/-- the object in memory -/
def enc (b : Succinct.Builder) : Builder := ⟨b.bits, W b.size, b.cur⟩

theorem new_eq (n : Nat) (init : Bool) (h : n + 63 < 2^64) : new (W n) init = (Succinct.Builder.new n init).map enc := by
  unfold new Succinct.Builder.new
  have e0 : W n = 0 ↔ n = 0 := W_inj n 0 (by omega) (by omega)
  have e1 : W n % 64 = 0 ↔ n % 64 = 0 := by rw [W_mod64]; exact W_inj _ 0 (by omega) (by omega)
  have e2 : (64 - W n % 64).toNat = 64 - n % 64 := by rw [sub64, W_toNat _ (by omega)]
  have hw : (wordsFor (W n)).toNat = Succinct.wordsFor n := by
    rw [wordsFor_eq n h, W_toNat]
    unfold Succinct.wordsFor; omega
  simp only [e0, e1, e2, hw, ne_eq]
  split
  · refine sim_bind (e := id) (by simp) fun c _ => ?_
    simp only [id]
    split
    · refine sim_bind (e := id) (by simp) fun w _ => ?_
      refine sim_bind (e := id) (by simp) fun w _ => ?_
      refine sim_bind (e := id) (by simp) fun w _ => ?_
      rfl
    · rfl
  · rfl

theorem pushBack_eq (b : Succinct.Builder) (x : Bool) : pushBack (enc b) x = (b.pushBack x).map enc := by
  unfold pushBack Succinct.Builder.pushBack
  have e1 : W b.size % 64 = 0 ↔ b.size % 64 = 0 := by rw [W_mod64]; exact W_inj _ 0 (by omega) (by omega)
  have e2 : (W b.size % 64).toNat = b.size % 64 := by rw [W_mod64, W_toNat _ (by omega)]
  have e3 : W b.size + 1 = W (b.size + 1) := (W_add _ 1).symm
  simp only [enc, e1, e2, e3]
  refine sim_bind (e := id) (by simp) fun v _ => ?_
  simp only [id]
  split
  · refine sim_bind (e := id) (by simp) fun c _ => ?_
    refine sim_bind (e := id) (by simp) fun c _ => ?_
    rfl
  · refine sim_bind (e := id) (by simp) fun c _ => ?_
    rfl

theorem set_eq (b : Succinct.Builder) (pos : Nat) (hp : pos < 2^64) (x : Bool) : set (enc b) (W pos) x = (b.set pos x).map enc := by
  unfold set Succinct.Builder.set
  have e1 : (W pos / 64).toNat = pos / 64 := by rw [div64, W_toNat _ hp]
  have e2 : (W pos % 64).toNat = pos % 64 := by rw [W_mod64, W_toNat _ (by omega)]
  simp only [enc, at_, put, e1, e2]
  refine sim_bind (e := id) (by simp) fun _ _ => ?_
  refine sim_bind (e := id) (by simp) fun _ _ => ?_
  refine sim_bind (e := id) (by simp) fun _ _ => ?_
  refine sim_bind (e := id) (by simp) fun _ _ => ?_
  refine sim_bind (e := id) (by simp) fun _ _ => ?_
  refine sim_bind (e := id) (by simp) fun _ _ => ?_
  rfl

theorem noSpurious_eq (bits : Word) (len : Nat) (hl : len < 2^64) : noSpurious bits (W len) = Succinct.Builder.noSpurious bits len := by
  unfold noSpurious Succinct.Builder.noSpurious
  have e1 : W len = 64 ↔ len = 64 := W_inj _ 64 hl (by omega)
  simp only [e1, W_toNat _ hl]

theorem lenMask_eq (len : Nat) (hl : len < 2^64) : lenMask (W len) = Succinct.Builder.lenMask len := by
  unfold lenMask Succinct.Builder.lenMask
  have e1 : W len = 64 ↔ len = 64 := W_inj _ 64 hl (by omega)
  simp only [e1, W_toNat _ hl]

theorem setBits_eq (b : Succinct.Builder) (hs : b.size < 2^64) (pos : Nat) (bits : Word) (len : Nat) (hp : pos + len < 2^64) :
    setBits (enc b) (W pos) bits (W len) = (b.setBits pos bits len).map enc := by
  unfold setBits Succinct.Builder.setBits
  have e0 : W pos + W len ≤ W b.size ↔ pos + len ≤ b.size := by rw [← W_add]; exact W_le _ _ (by omega) hs
  have el : W len = 0 ↔ len = 0 := W_inj _ 0 (by omega) (by omega)
  have e1 : (W pos / 64).toNat = pos / 64 := by rw [div64, W_toNat _ (by omega)]
  have e2 : (W pos % 64).toNat = pos % 64 := by rw [W_mod64, W_toNat _ (by omega)]
  have e3 : (W pos / 64 + 1).toNat = pos / 64 + 1 := by
    rw [toNat_add_lt _ _ (by rw [e1]; show _ + 1 < _; omega), e1]; rfl
  have e4 : (64 - W pos % 64).toNat = 64 - pos % 64 := by rw [sub64, W_toNat _ (by omega)]
  have e5 : 64 - W pos % 64 < W len ↔ 64 - pos % 64 < len := by rw [lt_W _ _ (by omega), e4]
  refine sim_assert e0 fun _ => ?_
  refine sim_bind (e := id) (by rw [noSpurious_eq _ _ (by omega)]; simp) fun _ _ => ?_
  simp only [el, enc, at_, put, e1, e2, e3, e4, e5, lenMask_eq len (by omega)]
  split
  · rfl
  · refine sim_bind (e := id) (by simp) fun _ _ => ?_
    refine sim_bind (e := id) (by simp) fun _ _ => ?_
    refine sim_bind (e := id) (by simp) fun _ _ => ?_
    refine sim_bind (e := id) (by simp) fun _ _ => ?_
    refine sim_bind (e := id) (by simp) fun _ _ => ?_
    refine sim_bind (e := id) (by simp) fun _ _ => ?_
    refine sim_bind (e := id) (by simp) fun _ _ => ?_
    split
    · refine sim_bind (e := id) (by simp) fun _ _ => ?_
      refine sim_bind (e := id) (by simp) fun _ _ => ?_
      refine sim_bind (e := id) (by simp) fun _ _ => ?_
      refine sim_bind (e := id) (by simp) fun _ _ => ?_
      refine sim_bind (e := id) (by simp) fun _ _ => ?_
      refine sim_bind (e := id) (by simp) fun _ _ => ?_
      rfl
    · rfl

theorem appendBits_eq (b : Succinct.Builder) (bits : Word) (len : Nat) (hl : len < 2^64) :
    appendBits (enc b) bits (W len) = (b.appendBits bits len).map enc := by
  unfold appendBits Succinct.Builder.appendBits
  have el : W len = 0 ↔ len = 0 := W_inj _ 0 (by omega) (by omega)
  have e1 : W b.size % 64 = 0 ↔ b.size % 64 = 0 := by rw [W_mod64]; exact W_inj _ 0 (by omega) (by omega)
  have e2 : (W b.size % 64).toNat = b.size % 64 := by rw [W_mod64, W_toNat _ (by omega)]
  have e3 : W b.size + W len = W (b.size + len) := (W_add _ _).symm
  have e4 : (64 - W b.size % 64).toNat = 64 - b.size % 64 := by rw [sub64, ← mod64, e2]
  have e5 : W len > 64 - W b.size % 64 ↔ len > 64 - b.size % 64 := by
    show 64 - W b.size % 64 < W len ↔ _
    rw [lt_W _ _ hl, e4]
  refine sim_bind (e := id) (by rw [noSpurious_eq _ _ hl]; simp) fun _ _ => ?_
  simp only [el, enc, e1, e2, e3, e4, e5]
  split
  · rfl
  · split
    · refine sim_bind (e := id) (by simp) fun _ _ => ?_
      rfl
    · refine sim_bind (e := id) (by simp) fun _ _ => ?_
      refine sim_bind (e := id) (by simp) fun _ _ => ?_
      split
      · refine sim_bind (e := id) (by simp) fun _ _ => ?_
        refine sim_bind (e := id) (by simp) fun _ _ => ?_
        rfl
      · refine sim_bind (e := id) (by simp) fun _ _ => ?_
        rfl

theorem oneExtendLoop_eq (fuel : Nat) (b : Succinct.Builder) (n : Nat) (hn : n < 2^64) :
    oneExtendLoop fuel (enc b) (W n) = (Succinct.Builder.oneExtendLoop fuel b n).map enc := by
  induction fuel generalizing b n with
  | zero =>
    unfold oneExtendLoop Succinct.Builder.oneExtendLoop
    have e1 : W n ≥ 64 ↔ n ≥ 64 := W_le 64 n (by omega) hn
    have e2 : W n = 0 ↔ n = 0 := W_inj n 0 hn (by omega)
    simp only [e1, e2, ne_eq]
    split
    · rfl
    · split
      · have e3 : (64 - W n).toNat = 64 - n := by
          rw [toNat_sub_le _ _ (by rw [W_toNat _ hn]; show n ≤ 64; omega), W_toNat _ hn]; rfl
        rw [e3]
        refine sim_bind (e := id) (by simp) fun v _ => ?_
        exact appendBits_eq b v n hn
      · rfl
  | succ fuel ih =>
    unfold oneExtendLoop Succinct.Builder.oneExtendLoop
    have e1 : W n ≥ 64 ↔ n ≥ 64 := W_le 64 n (by omega) hn
    have e2 : W n = 0 ↔ n = 0 := W_inj n 0 hn (by omega)
    simp only [e1, e2, ne_eq]
    split
    · refine sim_bind (e := enc) (appendBits_eq b _ 64 (by omega)) fun b' _ => ?_
      have := ih b' (n - 64) (by omega)
      rw [W_sub _ _ (by omega)] at this
      exact this
    · split
      · have e3 : (64 - W n).toNat = 64 - n := by
          rw [toNat_sub_le _ _ (by rw [W_toNat _ hn]; show n ≤ 64; omega), W_toNat _ hn]; rfl
        rw [e3]
        refine sim_bind (e := id) (by simp) fun v _ => ?_
        exact appendBits_eq b v n hn
      · rfl

theorem oneExtend_eq (b : Succinct.Builder) (n : Nat) (hn : n < 2^64) : oneExtend (enc b) (W n) = (b.oneExtend n).map enc := by
  unfold oneExtend Succinct.Builder.oneExtend
  rw [W_toNat _ hn]
  exact oneExtendLoop_eq n b n hn

theorem zeroExtend_eq (b : Succinct.Builder) (n : Nat) (hs : b.size + n ≤ 2^63) (hb : b.bits.length ≤ Succinct.wordsFor (b.size + n)) :
    zeroExtend (enc b) (W n) = (b.zeroExtend n).map enc := by
  have hw : Succinct.wordsFor (b.size + n) ≤ 2^57 := by unfold Succinct.wordsFor; omega
  unfold zeroExtend Succinct.Builder.zeroExtend
  have e1 : W b.size + W n = W (b.size + n) := (W_add _ _).symm
  have e2 : wordsFor (W (b.size + n)) - vlen b.bits = W (Succinct.wordsFor (b.size + n) - b.bits.length) := by
    rw [wordsFor_eq _ (by omega), W_sub _ _ hb]; rfl
  have e3 : W (Succinct.wordsFor (b.size + n) - b.bits.length) = 0 ↔ Succinct.wordsFor (b.size + n) - b.bits.length = 0 :=
    W_inj _ 0 (by omega) (by omega)
  simp only [enc, e1, e2, e3, ne_eq, subU_eq _ _ hb, bind_pure_some]
  split
  · rw [W_toNat _ (by omega), assert_yes (by omega), bind_pure_some]
    refine sim_bind (e := id) (by simp) fun v _ => ?_
    rfl
  · rfl

theorem append_eq (b r : Succinct.Builder) (hs : b.size + r.size ≤ 2^63) (hb : b.bits.length ≤ Succinct.wordsFor (b.size + r.size)) :
    append (enc b) (enc r) = (b.append r).map enc := by
  have hw : Succinct.wordsFor (b.size + r.size) ≤ 2^57 := by unfold Succinct.wordsFor; omega
  unfold append Succinct.Builder.append
  have e0 : W r.size = 0 ↔ r.size = 0 := W_inj _ 0 (by omega) (by omega)
  have e1 : W b.size + W r.size = W (b.size + r.size) := (W_add _ _).symm
  have e2 : (wordsFor (W (b.size + r.size))).toNat = Succinct.wordsFor (b.size + r.size) := by
    rw [wordsFor_eq _ (by omega), W_toNat _ (by omega)]
  have e3 : W b.size % 64 = 0 ↔ b.size % 64 = 0 := by rw [W_mod64]; exact W_inj _ 0 (by omega) (by omega)
  have e4 : (W b.size % 64).toNat = b.size % 64 := by rw [W_mod64, W_toNat _ (by omega)]
  have e5 : (vlen b.bits).toNat = b.bits.length := W_toNat _ (by omega)
  have e6 : (64 - W b.size % 64).toNat = 64 - b.size % 64 := by rw [sub64, ← mod64, e4]
  have e7 : resize b.bits (Succinct.wordsFor (b.size + r.size)) =
      b.bits ++ List.replicate (Succinct.wordsFor (b.size + r.size) - b.bits.length) 0 := by
    unfold resize
    rw [List.take_of_length_le hb]
  simp only [enc, e0, e1, e2, e3, e4, e5, e6, e7, subU_eq _ _ hb, bind_pure_some]
  split
  · rfl
  · split
    · refine sim_assert Iff.rfl fun _ => ?_
      refine sim_bind (e := id) (by simp) fun v _ => ?_
      rfl
    · refine sim_bind (e := id) (by simp) fun _ _ => ?_
      refine sim_bind (e := id) (by simp) fun _ _ => ?_
      refine sim_bind (e := id) (by simp) fun _ _ => ?_
      refine sim_bind (e := id) (by simp) fun _ _ => ?_
      refine sim_bind (e := id) (by simp) fun _ _ => ?_
      refine sim_bind (e := id) (by simp) fun _ _ => ?_
      refine sim_bind (e := id) (by simp) fun _ _ => ?_
      simp only [id]
      split
      · refine sim_bind (e := id) (by simp) fun _ _ => ?_
        refine sim_bind (e := id) (by simp) fun _ _ => ?_
        rfl
      · rfl

theorem reverse_eq (b : Succinct.Builder) : reverse (enc b) = (b.reverse).map enc := by
  unfold reverse Succinct.Builder.reverse
  have e4 : (W b.size % 64).toNat = b.size % 64 := by rw [W_mod64, W_toNat _ (by omega)]
  have e6 : (64 - W b.size % 64).toNat = 64 - b.size % 64 := by rw [sub64, ← mod64, e4]
  simp only [enc, e6]
  refine sim_bind (e := id) (by simp) fun _ _ => ?_
  refine sim_assert Iff.rfl fun _ => ?_
  rfl

open Spec in
/-- a history of builder calls gives the same builder -/
theorem run_eq (p : Prog) : ∀ l, p.spec = some l → p.ReserveAligned → l.length ≤ 2^63 →
    run p = (Succinct.Builder.run p).map enc := by
  induction p with
  | new n b =>
    intro l h _ hl
    simp only [Prog.spec, Option.some.injEq] at h
    subst h
    rw [List.length_replicate] at hl
    exact new_eq n b (by omega)
  | pushBack p b ih =>
    intro l h hr hl
    simp only [Prog.spec, Option.bind_eq_bind, Option.bind_eq_some_iff, Option.some.injEq] at h
    obtain ⟨l0, h0, rfl⟩ := h
    rw [List.length_append] at hl
    exact sim_bind (ih l0 h0 hr (by omega)) fun s _ => pushBack_eq s b
  | set p pos b ih =>
    intro l h hr hl
    simp only [Prog.spec, Option.bind_eq_bind, Option.bind_eq_some_iff] at h
    obtain ⟨l0, h0, h⟩ := h
    split at h
    · rename_i hp
      simp only [Option.some.injEq] at h; subst h
      rw [List.length_set] at hl
      exact sim_bind (ih l0 h0 hr (by omega)) fun s _ => set_eq s pos (by omega) b
    · simp at h
  | setBits p pos bits len ih =>
    intro l h hr hl
    simp only [Prog.spec, Option.bind_eq_bind, Option.bind_eq_some_iff] at h
    obtain ⟨l0, h0, h⟩ := h
    split at h
    · rename_i hp
      simp only [Option.some.injEq] at h; subst h
      rw [List.length_append, List.length_append, List.length_take, List.length_drop, lowBits_length] at hl
      have hp1 := hp.1
      obtain ⟨s, e, i⟩ := Succinct.Builder.run_inv p l0 h0 hr
      refine sim_bind (ih l0 h0 hr (by omega)) fun s' hs' => ?_
      rw [e] at hs'
      obtain rfl := Option.some.inj hs'
      have := i.size
      exact setBits_eq s (by omega) pos bits len (by omega)
    · simp at h
  | appendBits p bits len ih =>
    intro l h hr hl
    simp only [Prog.spec, Option.bind_eq_bind, Option.bind_eq_some_iff] at h
    obtain ⟨l0, h0, h⟩ := h
    split at h
    · rename_i hp
      simp only [Option.some.injEq] at h; subst h
      rw [List.length_append] at hl
      exact sim_bind (ih l0 h0 hr (by omega)) fun s _ => appendBits_eq s bits len (by have := hp.1; omega)
    · simp at h
  | zeroExtend p n ih =>
    intro l h hr hl
    simp only [Prog.spec, Option.bind_eq_bind, Option.bind_eq_some_iff, Option.some.injEq] at h
    obtain ⟨l0, h0, rfl⟩ := h
    rw [List.length_append, List.length_replicate] at hl
    obtain ⟨s, e, i⟩ := Succinct.Builder.run_inv p l0 h0 hr
    refine sim_bind (ih l0 h0 hr (by omega)) fun s' hs' => ?_
    rw [e] at hs'
    obtain rfl := Option.some.inj hs'
    have := i.size; have := i.len
    exact zeroExtend_eq s n (by omega) (by unfold Succinct.wordsFor; omega)
  | oneExtend p n ih =>
    intro l h hr hl
    simp only [Prog.spec, Option.bind_eq_bind, Option.bind_eq_some_iff, Option.some.injEq] at h
    obtain ⟨l0, h0, rfl⟩ := h
    rw [List.length_append, List.length_replicate] at hl
    exact sim_bind (ih l0 h0 hr (by omega)) fun s _ => oneExtend_eq s n (by omega)
  | append p q ihp ihq =>
    intro l h hr hl
    simp only [Prog.spec, Option.bind_eq_bind, Option.bind_eq_some_iff, Option.some.injEq] at h
    obtain ⟨l0, h0, l1, h1, rfl⟩ := h
    rw [List.length_append] at hl
    obtain ⟨s, e, i⟩ := Succinct.Builder.run_inv p l0 h0 hr.1
    obtain ⟨t, e', i'⟩ := Succinct.Builder.run_inv q l1 h1 hr.2
    refine sim_bind (ihp l0 h0 hr.1 (by omega)) fun s' hs' => ?_
    refine sim_bind (ihq l1 h1 hr.2 (by omega)) fun t' ht' => ?_
    rw [e] at hs'
    rw [e'] at ht'
    obtain rfl := Option.some.inj hs'
    obtain rfl := Option.some.inj ht'
    have := i.size; have := i.len; have := i'.size
    exact append_eq s t (by omega) (by unfold Succinct.wordsFor; omega)
  | reverse p ih =>
    intro l h hr hl
    simp only [Prog.spec, Option.bind_eq_bind, Option.bind_eq_some_iff, Option.some.injEq] at h
    obtain ⟨l0, h0, rfl⟩ := h
    rw [List.length_reverse] at hl
    exact sim_bind (ih l0 h0 hr (by omega)) fun s _ => reverse_eq s
  | reserve p r ih =>
    intro l h hr hl
    simp only [Prog.spec] at h
    refine sim_bind (ih l h hr.1 hl) fun s _ => ?_
    cases r <;> rfl

end Builder

namespace BitVector

theorem ofBuilder_eq (b : Succinct.Builder) (hs : b.size ≤ 2^63) (hb : b.bits.length < 2^64) :
    ofBuilder (Builder.enc b) = (Succinct.BitVector.ofBuilder b).map enc := by
  unfold ofBuilder Succinct.BitVector.ofBuilder
  refine sim_assert ?_ fun _ => rfl
  show wordsFor (W b.size) = W b.bits.length ↔ _
  rw [wordsFor_eq _ (by omega), W_inj _ _ (by unfold Succinct.wordsFor; omega) hb]

end BitVector
end Machine
end Succinct
