import Verif.Model.Checked
import Verif.Lemmas.MsbLsb

/-! # `unary_enumerator::next` from any state: a value, or a read behind the words -/
namespace Succinct
namespace Checked.UEnum
open Broadword

theorem add64_div {p : Word} (h : p.toNat + 64 < 2^64) : ((p + 64) / 64).toNat = p.toNat / 64 + 1 := by
  rw [BitVec.toNat_udiv, BitVec.toNat_add]
  show (p.toNat + 64) % 2^64 / 64 = _
  rw [Nat.mod_eq_of_lt h]
  omega

theorem nextLoop_cases (bits : List Word) (hb : bits.length < 2^57) : ∀ (fuel : Nat) (p b : Word), p.toNat + 64 < 2^64 →
    bits.length - p.toNat / 64 ≤ fuel → 0 < fuel →
    (nextLoop bits fuel p b = .mem ∧ b = 0 ∧ ∀ w ∈ bits.drop (p.toNat / 64 + 1), w = 0) ∨
    ((∃ r, nextLoop bits fuel p b = .ok r) ∧ (b ≠ 0 ∨ ∃ w ∈ bits.drop (p.toNat / 64 + 1), w ≠ 0)) := by
  intro fuel
  induction fuel with
  | zero => intro p b _ _ h; omega
  | succ fuel ih =>
    intro p b hp hf _
    unfold nextLoop
    cases hl : lsb b with
    | some r =>
      refine .inr ⟨⟨_, rfl⟩, .inl fun h => ?_⟩
      rw [(lsb_none b).2 h] at hl
      cases hl
    | none =>
      have hz := (lsb_none b).1 hl
      by_cases hi : p.toNat / 64 + 1 < bits.length
      · have hr : raw bits ((p + 64) / 64).toNat = .ok bits[p.toNat / 64 + 1] := by
          unfold raw
          rw [add64_div hp, List.getElem?_eq_getElem hi]
        have ep : (p + 64).toNat = p.toNat + 64 := by
          rw [BitVec.toNat_add]
          exact Nat.mod_eq_of_lt hp
        have e1 : (p + 64).toNat / 64 = p.toNat / 64 + 1 := by omega
        have hd : bits.drop (p.toNat / 64 + 1) = bits[p.toNat / 64 + 1] :: bits.drop (p.toNat / 64 + 1 + 1) :=
          List.drop_eq_getElem_cons hi
        rcases ih (p + 64) bits[p.toNat / 64 + 1] (by omega) (by omega) (by omega) with ⟨h1, h2, h3⟩ | ⟨h1, h2⟩
        · refine .inl ⟨?_, hz, fun w hw => ?_⟩
          · show (raw bits ((p + 64) / 64).toNat >>= _) = _
            rw [hr]
            exact h1
          · rw [hd] at hw
            rw [e1] at h3
            rcases List.mem_cons.1 hw with h | h
            · rw [h, h2]
            · exact h3 w h
        · refine .inr ⟨?_, .inr ?_⟩
          · obtain ⟨r, h1⟩ := h1
            refine ⟨r, ?_⟩
            show (raw bits ((p + 64) / 64).toNat >>= _) = _
            rw [hr]
            exact h1
          · rw [hd]
            rw [e1] at h2
            rcases h2 with h2 | ⟨w, h2, h3⟩
            · exact ⟨_, List.mem_cons_self, h2⟩
            · exact ⟨w, List.mem_cons_of_mem _ h2, h3⟩
      · refine .inl ⟨?_, hz, fun w hw => ?_⟩
        · show (raw bits ((p + 64) / 64).toNat >>= _) = _
          unfold raw
          rw [add64_div hp, List.getElem?_eq_none (by omega)]
          rfl
        · rw [List.drop_eq_nil_of_le (by omega)] at hw
          cases hw

end Checked.UEnum
end Succinct
