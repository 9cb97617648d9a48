import Verif.Spec.Enumerator

/-! # What `bit_vector::enumerator` does for every history

The state is `position()` and an interval `[b, c)` of the stored bits, those still in the buffer.  After a `take(64)` the interval is not
emptied; a `skip_zeros` that follows looks there first, and from then on the position is beyond `c`. -/
namespace Succinct.Spec

structure StreamBuf where
  pos : Nat
  b : Nat
  c : Nat
deriving DecidableEq, Repr

/-- the bits still in the buffer -/
def StreamBuf.bits (s : StreamBuf) (l : List Bool) : List Bool := (l.take s.c).drop s.b

/-- make `k` bits available: 64 bits from the position on are read if the interval ends less than `k` bits after it; once the position is
beyond the interval this never happens -/
inductive StreamFill (l : List Bool) (k : Nat) : StreamBuf → StreamBuf → Prop
  | fill {s} : s.pos ≤ s.c → s.c < s.pos + k → s.pos < l.length → StreamFill l k s ⟨s.pos, s.pos, s.pos + 64⟩
  | keep {s} : ¬ (s.pos ≤ s.c ∧ s.c < s.pos + k) → StreamFill l k s s

/-- one call: operation, returned value, new state -/
inductive StreamAct (l : List Bool) : StreamBuf → EnumOp → EnumOut → StreamBuf → Prop
  | next {s s'} : StreamFill l 1 s s' → StreamAct l s .next (.bit ((s'.bits l).headD false)) ⟨s'.pos + 1, s'.b + 1, s'.c⟩
  | take {s s' k} : k ≤ 64 → StreamFill l k s s' →
      StreamAct l s (.take k) (.val (bitsToNat ((s'.bits l).take k))) ⟨s'.pos + k, if k = 64 then s'.b else s'.b + k, s'.c⟩
  | skipIn {s t} : IsSucc true l s.b t → t < s.c → StreamAct l s .skipZeros (.val (t - s.b)) ⟨s.pos + (t - s.b + 1), t + 1, s.c⟩
  | skipOut {s q} : (∀ t, s.b ≤ t → t < s.c → l[t]? ≠ some true) → IsSucc true l s.c q →
      StreamAct l s .skipZeros (.val (((q : Int) - s.pos) % 2^64).toNat) ⟨q + 1, q + 1, s.c + 64 * ((q - s.c) / 64 + 1)⟩

/-- a history of calls; returned values with `position()` after each -/
inductive StreamActRun (l : List Bool) : StreamBuf → List EnumOp → List (EnumOut × Nat) → Prop
  | nil {s} : StreamActRun l s [] []
  | cons {s op o s' ops outs} : StreamAct l s op o s' → StreamActRun l s' ops outs →
      StreamActRun l s (op :: ops) ((o, s'.pos) :: outs)

end Succinct.Spec
