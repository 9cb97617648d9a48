import Verif.Model.ReleaseSeq
import Verif.Lemmas.MachineSeq
import Verif.Lemmas.ReleaseDarray64
import Verif.Lemmas.ReleaseEF

/-! Integer sequences and enumerators without assertions. -/
namespace Succinct
namespace Release
open Broadword Spec
open Machine (W at_)
open RSBitVector (bind_pure_some)

variable (ov : Word → Nat → Word)

/-! ## agreement with the checked build -/

theorem lsb1_below {β : Type} (w : Word) (f : Nat → Option β) : Below (Broadword.lsb1 w >>= f) (f (lsb1 w)) := by
  intro r hr
  rw [Option.bind_eq_bind, Option.bind_eq_some_iff] at hr
  obtain ⟨l, h1, h2⟩ := hr
  unfold Broadword.lsb1 at h1
  rw [Option.bind_eq_bind, Option.bind_eq_some_iff] at h1
  obtain ⟨_, _, h1⟩ := h1
  unfold lsb1
  rw [h1]; exact h2

theorem efclGet_below (v : Machine.EFCompressedList) (i : Word) : Below (v.get ov i) (efclGet ov v i) :=
  Below.bind (efSelectRange_below ov _ _) fun _ => Below.keep fun _ => Below.bind (bvGetBits_below ov _ _ _) fun _ => Below.rfl

theorem fillBuf_below (v : Machine.BitVector) (e : Machine.Enum) : Below (e.fillBuf v) (fillBuf v e) :=
  Below.bind (bvGetWord_below _ _) fun _ => Below.rfl

theorem take_below (v : Machine.BitVector) (e : Machine.Enum) (l : Word) : Below (e.take v l) (take v e l) := by
  unfold Machine.Enum.take take
  dsimp only
  exact Below.ite (Below.bind (fillBuf_below v e) fun _ => Below.rfl) Below.rfl

theorem gvGet_below (v : Machine.GammaVec) (i : Word) : Below (Machine.GammaVector.get ov v i) (gvGet ov v i) := by
  refine Below.bind (da64Select_below _ _) fun pos => ?_
  intro r hr
  rw [Option.bind_eq_bind, Option.bind_eq_some_iff] at hr
  obtain ⟨⟨a, b⟩, h1, h2⟩ := hr
  cases h2
  unfold Machine.GammaVector.retrieve at h1
  simp only [Option.bind_eq_bind, Option.bind_eq_some_iff] at h1
  obtain ⟨_, _, _, _, w, h1, l, h2, one, h3, x, h4, h5⟩ := h1
  cases h5
  have h6 := lsb1_below w (fun l => some l) l (by rw [h2]; rfl)
  rw [bvGetWord_below _ _ _ h1, bind_pure_some]
  dsimp only
  rw [Option.some.inj h6, h3, bind_pure_some, bvGetBits_below ov _ _ _ _ h4]; rfl

theorem gbvGet_below (v : Machine.GammaVec) (i : Word) : Below (Machine.GammaBitVector.get ov v i) (gbvGet ov v i) := by
  refine Below.bind (da64Select_below _ _) fun pos => ?_
  intro r hr
  rw [Option.bind_eq_bind, Option.bind_eq_some_iff] at hr
  obtain ⟨⟨a, b⟩, h1, h2⟩ := hr
  cases h2
  unfold Machine.GammaBitVector.retrieve at h1
  simp only [Option.bind_eq_bind, Option.bind_eq_some_iff] at h1
  obtain ⟨_, _, _, _, w, h1, l, h2, x, h3, one, h4, h5⟩ := h1
  cases h5
  have h6 := lsb1_below w (fun l => some l) l (by rw [h2]; rfl)
  rw [bvGetWord_below _ _ _ h1, bind_pure_some]
  dsimp only
  rw [Option.some.inj h6, bvGetBits_below ov _ _ _ _ h3, bind_pure_some, h4]; rfl

theorem gvEnumNew_below (v : Machine.GammaVec) (i : Word) : Below (Machine.GammaVector.enumNew v i) (gvEnumNew v i) :=
  Below.ite (Below.bind (da64Select_below _ _) fun _ => Below.rfl) Below.rfl

theorem gbvEnumNew_below (v : Machine.GammaVec) (i : Word) : Below (Machine.GammaBitVector.enumNew v i) (gbvEnumNew v i) :=
  Below.ite (Below.bind (da64Select_below _ _) fun _ => Below.rfl) Below.rfl

theorem gvEnumNext_below (v : Machine.GammaVec) (e : Machine.GammaEnum) : Below (Machine.GammaVector.enumNext v e) (gvEnumNext v e) :=
  Below.drop fun _ => Below.keep fun _ => Below.keep fun _ => Below.bind (take_below _ _ _) fun _ => Below.rfl

theorem gbvEnumNext_below (v : Machine.GammaVec) (e : Machine.GammaEnum) : Below (Machine.GammaBitVector.enumNext v e) (gbvEnumNext v e) :=
  Below.drop fun _ => Below.keep fun _ => Below.keep fun _ => Below.bind (take_below _ _ _) fun _ => Below.rfl

theorem selNew_below (ef : Machine.EliasFano) (i : Word) : Below (Machine.EliasFano.SelEnum.new ef i) (selNew ef i) :=
  Below.keep fun _ => Below.ite Below.rfl (Below.bind (daSelect_below _ _ _ _) fun _ => Below.keep fun _ => Below.drop fun _ => Below.rfl)

theorem selNext_below (ef : Machine.EliasFano) (e : Machine.EliasFano.SelEnum) : Below (Machine.EliasFano.SelEnum.next ef e) (selNext ef e) := by
  refine Below.bind ?_ fun _ => Below.keep fun _ => Below.keep fun _ => Below.drop fun _ => Below.drop fun _ => Below.rfl
  exact Below.ite (Below.bind (bvGetWord_below _ _) fun _ => Below.rfl) Below.rfl

/-! ## the end of a unary sequence -/

theorem nextLoop_out (bits : List Word) (hb : bits.length ≤ 2^57) (fuel : Nat) : ∀ pos : Word, pos.toNat < 2^63 + 2^62 →
    (∀ j w, pos.toNat / 64 < j → bits[j]? = some w → w = 0) → Machine.UEnum.nextLoop bits fuel pos 0 = none := by
  induction fuel with
  | zero => intro pos _ _; unfold Machine.UEnum.nextLoop; rw [show lsb 0 = none by decide +kernel]
  | succ fuel ih =>
    intro pos hp h0
    unfold Machine.UEnum.nextLoop
    rw [show lsb 0 = none by decide +kernel]
    dsimp only
    have e1 : (pos + 64).toNat = pos.toNat + 64 := Machine.toNat_add_lt pos 64 (by show pos.toNat + 64 < 2^64; omega)
    have e2 : ((pos + 64) / 64).toNat = pos.toNat / 64 + 1 := by
      rw [BitVec.toNat_udiv, e1]; show (pos.toNat + 64) / 64 = _; omega
    unfold at_
    rw [e2]
    by_cases hj : pos.toNat / 64 + 1 < bits.length
    · have hw := h0 _ _ (Nat.lt_succ_self _) (List.getElem?_eq_getElem hj)
      unfold rd
      rw [List.getElem?_eq_getElem hj, bind_pure_some, hw]
      exact ih _ (by rw [e1]; omega) fun j w hj1 hj2 => h0 j w (by rw [e1] at hj1; omega) hj2
    · unfold rd
      rw [List.getElem?_eq_none (by omega)]; rfl

theorem next_out {bits : List Word} {l : List Bool} (hr : Repr bits l) (hl : l.length ≤ 2^63) (u : UEnum) (c : Nat) (hg : UEnum.Good l u c)
    (hc : c ≤ 2^63) (h0 : ∀ q, c ≤ q → bitFn l q = false) : Machine.UEnum.next bits (Machine.UEnum.enc u) = none := by
  have hlen := hr.len
  rw [wordsFor_eq] at hlen
  have h1 := hg.lo
  have h2 := hg.hi
  have hp : (W u.position).toNat = u.position := Machine.W_toNat _ (by omega)
  have hbuf : u.buf = 0 := by
    apply BitVec.eq_of_getLsbD_eq
    intro i hi
    rw [hg.buf i hi]
    by_cases hci : c ≤ 64 * (u.position/64) + i
    · rw [h0 _ hci]; simp
    · simp [hci]
  unfold Machine.UEnum.next
  rw [show (Machine.UEnum.enc u).position = W u.position from rfl, show (Machine.UEnum.enc u).buf = u.buf from rfl, hbuf,
    nextLoop_out bits (by omega) _ _ (by rw [hp]; omega) (fun j w hj hw => ?_)]; · rfl
  rw [hp] at hj
  obtain ⟨hj', rfl⟩ := List.getElem?_eq_some_iff.1 hw
  apply BitVec.eq_of_getLsbD_eq
  intro i hi
  have := getElem_getLsbD bits j i hj' hi
  rw [this, hr.bit, h0 _ (by omega)]; simp

end Release
end Succinct
