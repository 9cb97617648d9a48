import Verif.Lemmas.UnaryActual
import Verif.Props.MachineEnum

/-! # C77: what `unary_enumerator` does for every history of calls -/
namespace Succinct
open Spec
open Machine (W)

/-- **C77.** For every history of calls the answers and positions are those of `UnaryActRun`, and the code reads out of bounds (or fails
an assertion) exactly if there are none: a one or zero is asked for that the allocated words do not hold. -/
theorem C77_unary_actual (l : List Bool) (p : Nat) (hp : p < (padded l).length) (ops : List UnaryOp) (outs : List (Option Nat × Nat)) :
    (UEnum.new (BitVector.ofRange l).bits p).bind (fun e => UEnum.runPos (BitVector.ofRange l).bits e ops) = some outs ↔
      UnaryActRun (padded l) p false ops outs := by
  obtain ⟨hr, hl⟩ := padded_repr (BitVector.ofRange_rep l).repr
  obtain ⟨e, k1, k2, k3⟩ := UEnum.new_good hr p hp
  rw [k1, Option.bind_some]
  exact UEnum.runPos_act hr hl ops (t := false) ⟨k3, hp, k2⟩ outs

/-- **C77**, beyond the allocated words an enumerator cannot be made. -/
theorem C77_new_oob (l : List Bool) (p : Nat) (hp : (padded l).length ≤ p) : UEnum.new (BitVector.ofRange l).bits p = none := by
  obtain ⟨_, hl⟩ := padded_repr (BitVector.ofRange_rep l).repr
  unfold UEnum.new rd
  rw [List.getElem?_eq_none (by omega)]; rfl

/-- the histories of C08 in terms of `UnaryActRun`: with a `skip0` after `next` the zero counted is the one just returned -/
example : UnaryActRun (padded skip0Bits) 0 false [.next, .skip0 0, .next] [(some 0, 0), (none, 0), (some 1, 1)] :=
  .cons (.next ⟨by decide, by decide, fun r h1 h2 => by omega⟩) (.cons (.skip0 (by decide) ⟨by decide, by decide⟩)
    (.cons (.next ⟨by decide, by decide, fun r h1 h2 => by simp at h1; omega⟩) .nil))

/-- zeros in the padding are found: the vector has 4 bits, the 10th zero from position 0 is at 13 -/
example : UnaryActRun (padded skip0Bits) 0 false [.skip0 10] [(none, 13)] ∧ skip0Bits.length = 4 :=
  ⟨.cons (.skip0 (by decide) ⟨by decide, by decide +kernel⟩) .nil, rfl⟩

/-- a history that reads past the end: there is no fourth one -/
example : (UEnum.new (BitVector.ofRange skip0Bits).bits 0).bind (fun e => UEnum.runPos (BitVector.ofRange skip0Bits).bits e [.skip 2, .next, .next]) = none := by
  decide +kernel

theorem act_small {l : List Bool} {p : Nat} {t : Bool} {ops : List UnaryOp} {outs : List (Option Nat × Nat)} (h : UnaryActRun l p t ops outs)
    (hl : l.length ≤ 2^63) (hp : p ≤ l.length) :
    (outs.map fun r => (r.1.map W, W r.2)).map (fun r => (r.1.map BitVec.toNat, r.2.toNat)) = outs := by
  induction h with
  | nil => rfl
  | @cons p t op o p' t' ops outs hs _ ih =>
    have hlt : ∀ {m : List Bool} {b : Bool} {q : Nat}, m[q]? = some b → q < m.length := fun h => (List.getElem?_eq_some_iff.1 h).1
    have key : p' ≤ l.length ∧ ∀ q, o = some q → q < l.length := by
      cases hs with
      | next h1 =>
        have := hlt h1.2.1
        refine ⟨by omega, ?_⟩
        rintro q ⟨⟩
        exact this
      | skip h1 h2 => have := hlt h2.1; exact ⟨by omega, by simp⟩
      | skipNoMove h1 h2 =>
        have := hlt h2.1
        refine ⟨by omega, ?_⟩
        rintro q ⟨⟩
        exact this
      | skip0 h1 h2 =>
        have := hlt h2.1
        have e : (if t = true then l.set p false else l).length = l.length := by split <;> simp
        exact ⟨by omega, by simp⟩
    rw [List.map_cons, List.map_cons, ih key.1]
    congr 1
    show ((o.map W).map BitVec.toNat, (W p').toNat) = _
    rw [Machine.W_toNat _ (by have := key.1; omega)]
    cases o with
    | none => rfl
    | some q =>
      have := key.2 q rfl
      show (some (W q).toNat, _) = _
      rw [Machine.W_toNat _ (by omega)]

/-- **C77** in wrapping 64-bit arithmetic, for a vector built by a history: every history of calls that has answers. -/
theorem C77_machine (pr : Prog) (l : List Bool) (h : pr.spec = some l) (hr : pr.ReserveAligned) (hl : l.length < 2^63) (p : Word)
    (hp : p.toNat < (padded l).length) (ops : List Machine.UnaryCall) (outs : List (Option Nat × Nat))
    (hrun : UnaryActRun (padded l) p.toNat false (ops.map (·.op)) outs) :
    ∃ bv e r, Machine.history pr = some bv ∧ Machine.UEnum.new bv.bits p = some e ∧ Machine.UEnum.run bv.bits e ops = some r ∧
      r.map (fun x => (x.1.map BitVec.toNat, x.2.toNat)) = outs := by
  have hf := Machine.BitVector.Fits.of_rep (BitVector.ofRange_rep l) (Nat.le_of_lt hl)
  have hb := Machine.BitVector.len_le hf
  have e : ops.map (·.op) = ops.map Machine.UEnum.spec := List.map_congr_left fun c _ => by cases c <;> rfl
  have k := (C77_unary_actual l p.toNat hp _ outs).2 hrun
  simp only [Option.bind_eq_some_iff] at k
  obtain ⟨u, k1, k2⟩ := k
  have m1 := Machine.UEnum.new_le hb p.toNat u k1
  rw [Machine.W_of] at m1
  have hlen : (padded l).length ≤ 2^63 := by
    unfold padded; rw [List.length_append, List.length_replicate]; omega
  exact ⟨_, _, _, Machine.history_eq pr l h hr (Nat.le_of_lt hl), m1, Machine.UEnum.run_le hb ops u outs (by rw [← e]; exact k2),
    act_small hrun hlen (Nat.le_of_lt hp)⟩

end Succinct
