import Verif.Props.BitVector
import Verif.Lemmas.Spent

/-!
# C69: a builder that has been handed to a constructor and the vector made of it

Full claim: no operation performed on the builder afterwards is observable through the vector.  It is
**false** of the code (`C69_false`): `m_cur_word` of the builder still points to the last word of the
vector, so that bits appended to the builder land in its padding.  Proved: the bits of the vector, and
the answers of the queries that are confined to them, survive any history.
-/
namespace Succinct
open Spec
open RSBitVector (bind_pure_some)

/-- **C69** (partial): the builder performs any history of operations free of undefined behaviour, after
having been made into the vector of the bits `l`.  Missing: `get_word` and the other reads beyond the
end, and the image written by `freeze` (these do change, see `C69_false`). -/
theorem C69_bits_partial (p : Prog) (l : List Bool) (h : p.spec = some l) (hr : p.ReserveAligned) :
    ∃ b s, Builder.run p = some b ∧ Spent.consume b = some s ∧ s.vec = BitVector.ofRange l ∧
      ∀ ops s', s.run ops = some s' →
        s'.vec.size = l.length ∧ s'.vec.bits.length = s.vec.bits.length ∧
        (∀ i, s'.vec.access i = l[i]?) ∧
        (∀ ov pos len, len ≤ 64 → pos + len ≤ l.length → s'.vec.getBits ov pos len = s.vec.getBits ov pos len) ∧
        (∀ c pos q, pos < l.length → (s'.vec.predecessorB c pos = some q ↔ IsPred c l pos q)) ∧
        (∀ c pos q, pos < l.length → IsSucc c l pos q → s'.vec.successorB c pos = some q) := by
  obtain ⟨b, e, i⟩ := Builder.run_inv p l h hr
  obtain ⟨s, e1, hv, _, _, ok⟩ := Spent.consume_ok i
  refine ⟨b, s, e, e1, hv, fun ops s' hops => ?_⟩
  have ok' := Spent.run_ok ops ok hops
  obtain ⟨m, hm⟩ := BitVector.dirty_eq ok'.size ok'.len ok'.bit
  have get : ∀ i, i < l.length → (l ++ m)[i]? = l[i]? := fun i hi => List.getElem?_append_left hi
  refine ⟨ok'.size, by rw [ok'.len, ok.len], fun j => ?_, fun ov pos len hlen hp => ?_, fun c pos q hp => ?_, fun c pos q hp hq => ?_⟩
  · by_cases hj : j < l.length
    · rw [hm, BitVector.resize_access j hj, (C02_range (l ++ m)).2 j, get j hj]
    · unfold BitVector.access assertP
      rw [if_neg (by rw [ok'.size]; exact hj), List.getElem?_eq_none (by omega)]; rfl
  · rw [hm, BitVector.resize_getBits ov pos len hp, hv]
    obtain ⟨x, x1, x2⟩ := BitVector.getBits_eq ov (BitVector.ofRange_rep (l ++ m)) pos len hlen (by rw [List.length_append]; omega)
    obtain ⟨y, y1, y2⟩ := BitVector.getBits_eq ov (BitVector.ofRange_rep l) pos len hlen hp
    rw [x1, y1]
    congr 1
    apply BitVec.eq_of_getLsbD_eq
    intro t _
    rw [x2, y2]
    by_cases ht : t < len
    · rw [bitFn_append, if_pos (by omega)]
    · simp [ht]
  · rw [BitVector.predecessorB_eq, hm, BitVector.resize_predecessor _ pos hp, ← BitVector.predecessorB_eq,
      (C05_predecessor c (l ++ m) pos (by rw [List.length_append]; omega)).1 q]
    constructor
    · rintro ⟨h1, h2, h3⟩
      exact ⟨h1, by rw [← get q (by omega)]; exact h2, fun r r1 r2 => by rw [← get r (by omega)]; exact h3 r r1 r2⟩
    · rintro ⟨h1, h2, h3⟩
      exact ⟨h1, by rw [get q (by omega)]; exact h2, fun r r1 r2 => by rw [get r (by omega)]; exact h3 r r1 r2⟩
  · rw [BitVector.successorB_eq, hm, BitVector.resize_successor _ pos hp, ← BitVector.successorB_eq]
    obtain ⟨h1, h2, h3⟩ := hq
    have hql : q < l.length := (List.getElem?_eq_some_iff.1 h2).1
    exact C06_successor c (l ++ m) pos q (by rw [List.length_append]; omega)
      ⟨h1, by rw [get q hql]; exact h2, fun r r1 r2 => by rw [get r (by omega)]; exact h3 r r1 r2⟩

/-- **C69**: if the number of bits is a multiple of 64 there is no padding, and the vector is not touched
at all. -/
theorem C69_aligned (p : Prog) (l : List Bool) (h : p.spec = some l) (hr : p.ReserveAligned) (hl : l.length % 64 = 0) :
    ∃ b s, Builder.run p = some b ∧ Spent.consume b = some s ∧ ∀ ops s', s.run ops = some s' → s'.vec = BitVector.ofRange l := by
  obtain ⟨b, e, i⟩ := Builder.run_inv p l h hr
  obtain ⟨s, e1, hv, _, _, ok⟩ := Spent.consume_ok i
  refine ⟨b, s, e, e1, fun ops s' hops => ?_⟩
  have ok' := Spent.run_ok ops ok hops
  rw [← hv]
  have h1 := ok'.full hl
  have h2 := ok'.size
  have h3 := ok.size
  cases hs : s.vec with | mk a c => cases hs' : s'.vec with | mk a' c' =>
  rw [hs, hs'] at h1
  rw [hs] at h3
  rw [hs'] at h2
  simp only at h1 h2 h3
  rw [h1, h2, h3]

/-- **C69**: the claim in full is false.  Three bits, then one more bit pushed onto the spent builder:
the vector has other words than before and `get_word` another answer. -/
theorem C69_false :
    ∃ (p : Prog) (l : List Bool) (b : Builder) (s s' : Spent), p.spec = some l ∧ p.ReserveAligned ∧ Builder.run p = some b ∧
      Spent.consume b = some s ∧ s.run [.pushBack true] = some s' ∧ s'.vec ≠ s.vec ∧
      s.vec.getWord 0 = some 5#64 ∧ s'.vec.getWord 0 = some 13#64 :=
  ⟨.appendBits (.new 0 false) 5#64 3, [true, false, true], ⟨[5#64], 3, some 0⟩, ⟨⟨3, [5#64]⟩, [], 3, .lent 0⟩,
    ⟨⟨3, [13#64]⟩, [], 4, .lent 0⟩, by decide +kernel, trivial, by decide +kernel, by decide +kernel, by decide +kernel,
    by decide +kernel, by decide +kernel, by decide +kernel⟩

/-- **C69**: a spent builder still reports its old size, but a second vector cannot be made of it: the
assertion of `move_bits` fails unless it was empty. -/
theorem C69_twice (p : Prog) (l : List Bool) (h : p.spec = some l) (hr : p.ReserveAligned) :
    ∃ b s, Builder.run p = some b ∧ Spent.consume b = some s ∧ s.builder.size = l.length ∧
      (BitVector.ofBuilder s.builder = none ↔ l ≠ []) := by
  obtain ⟨b, e, i⟩ := Builder.run_inv p l h hr
  obtain ⟨s, e1, _, hs, hb, _⟩ := Spent.consume_ok i
  refine ⟨b, s, e, e1, hs, ?_⟩
  have h1 : s.builder.bits = [] := hb
  have h2 : s.builder.size = l.length := hs
  unfold BitVector.ofBuilder assertP
  rw [h1, h2]
  constructor
  · rintro hn rfl
    simp [wordsFor] at hn
  · intro hl
    have : 0 < l.length := List.length_pos_iff.2 hl
    rw [if_neg (by unfold wordsFor; simp; omega)]; rfl

/-- **C69**: `zero_extend(n)` makes a spent builder of `m` bits a proper builder again, one of `m + n`
zeros that no longer shares anything with the vector: whatever is done to it from then on leaves the
vector alone. -/
theorem C69_zero_extend (p : Prog) (l : List Bool) (n : Nat) (h : p.spec = some l) (hr : p.ReserveAligned) (hl : l ≠ []) :
    ∃ b s s', Builder.run p = some b ∧ Spent.consume b = some s ∧ s.run [.zeroExtend n] = some s' ∧
      s'.vec = BitVector.ofRange l ∧ (∃ c, s'.cur = .own c) ∧
      BitVector.ofBuilder s'.builder = some (BitVector.ofRange (List.replicate (l.length + n) false)) := by
  obtain ⟨b, e, i⟩ := Builder.run_inv p l h hr
  obtain ⟨s, e1, hv, hs, hb, _⟩ := Spent.consume_ok i
  have hpos : 0 < l.length := List.length_pos_iff.2 hl
  have hw : 0 < wordsFor (l.length + n) := by unfold wordsFor; omega
  refine ⟨b, s, ⟨s.vec, List.replicate (wordsFor (l.length + n)) 0, l.length + n, .own (wordsFor (l.length + n) - 1)⟩, e, e1, ?_, hv, ⟨_, rfl⟩, ?_⟩
  · unfold Spent.run Spent.step Spent.via Builder.zeroExtend Spent.builder
    simp only [hb, hs, List.nil_append, List.length_nil]
    rw [subU_eq _ _ (by omega), bind_pure_some, Nat.sub_zero, if_pos (by omega), Builder.back_eq _ (by simpa using hw), bind_pure_some]
    simp only [Option.pure_def, List.length_replicate]
    rfl
  · unfold Spent.builder
    have hrep : Rep ⟨l.length + n, List.replicate (wordsFor (l.length + n)) 0⟩ (List.replicate (l.length + n) false) := by
      refine ⟨by simp, by simp, fun q => ?_⟩
      have := Builder.wbit_replicate (wordsFor (l.length + n)) false q
      rw [show negBool false = 0 from rfl] at this
      show wbit (List.replicate (wordsFor (l.length + n)) 0) q = _
      rw [this, bitFn_replicate]; simp
    rw [← BitVector.eq_ofRange hrep]
    unfold BitVector.ofBuilder
    rw [assertP_eq _ (by simp)]; rfl

/-- the operations of a builder that has not been made into a vector -/
def Builder.perform (b : Builder) : Spent.Op → Option Builder
  | .pushBack x => b.pushBack x
  | .set pos x => b.set pos x
  | .setBits pos bits len => b.setBits pos bits len
  | .appendBits bits len => b.appendBits bits len
  | .zeroExtend n => b.zeroExtend n
  | .oneExtend n => b.oneExtend n
  | .append rhs => b.append rhs
  | .reverse => b.reverse
  | .reserve r => b.reserve r

namespace Spent

/-- the pointer does not lead into the vector -/
def Free (s : Spent) : Prop := ∀ i, s.cur ≠ .lent i

/-- a builder beside a vector it shares nothing with -/
def beside (v : BitVector) (b : Builder) : Spent := ⟨v, b.bits, b.size, match b.cur with | some c => .own c | none => .wild⟩

theorem beside_builder (v : BitVector) (b : Builder) : (beside v b).builder = b := by
  cases b with | mk a c d => cases d <;> rfl

theorem beside_free (v : BitVector) (b : Builder) : (beside v b).Free := by
  intro i; unfold beside; cases b.cur <;> simp

theorem Free.eq {s : Spent} (h : s.Free) : s = beside s.vec s.builder := by
  unfold Free at h
  obtain ⟨v, bs, n, c⟩ := s
  cases c with
  | wild => rfl
  | own i => rfl
  | lent i => exact absurd rfl (h i)

theorem via_beside (v : BitVector) (b : Builder) (op : Builder → Option Builder) : (beside v b).via op = (op b).map (beside v) := by
  unfold via
  rw [beside_builder]
  cases op b with
  | none => rfl
  | some b' =>
    rw [bind_pure_some]
    simp only [Option.map_some, Option.pure_def]
    unfold beside
    cases b'.cur <;> cases b.cur <;> rfl

theorem orCur_beside (v : BitVector) (bs : List Word) (n : Nat) (c : Option Nat) (w : Word) :
    (beside v ⟨bs, n, c⟩).orCur w = (Builder.orCur bs c w).map fun bs => beside v ⟨bs, n, c⟩ := by
  cases c with
  | none => rfl
  | some c =>
    show (Builder.orCur bs (some c) w).bind _ = _
    cases Builder.orCur bs (some c) w <;> rfl

theorem pushBack_beside (v : BitVector) (b : Builder) (x : Bool) : (beside v b).pushBack x = (b.pushBack x).map (beside v) := by
  obtain ⟨bs, n, c⟩ := b
  unfold pushBack Builder.pushBack
  show (shl (if x then 1 else 0) (n % 64)).bind _ = Option.map _ ((shl (if x then 1 else 0) (n % 64)).bind _)
  cases shl (if x then 1 else 0) (n % 64) with
  | none => rfl
  | some w =>
    rw [Option.bind_some, Option.bind_some]
    show (if n % 64 = 0 then _ else _) = Option.map _ (if n % 64 = 0 then _ else _)
    by_cases h : n % 64 = 0
    · rw [if_pos h, if_pos h]
      show (Builder.back (bs ++ [0])).bind _ = Option.map _ ((Builder.back (bs ++ [0])).bind _)
      cases Builder.back (bs ++ [0]) with
      | none => rfl
      | some i =>
        rw [Option.bind_some, Option.bind_some]
        show (orCur (beside v ⟨bs ++ [0], n, some i⟩) w).bind _ = Option.map _ ((Builder.orCur (bs ++ [0]) (some i) w).bind _)
        rw [orCur_beside]
        cases Builder.orCur (bs ++ [0]) (some i) w <;> rfl
    · rw [if_neg h, if_neg h]
      show (orCur (beside v ⟨bs, n, c⟩) w).bind _ = Option.map _ ((Builder.orCur bs c w).bind _)
      rw [orCur_beside]
      cases Builder.orCur bs c w with
      | none => rfl
      | some bs' => cases c <;> rfl

theorem appendBits_beside (v : BitVector) (b : Builder) (w : Word) (len : Nat) : (beside v b).appendBits w len = (b.appendBits w len).map (beside v) := by
  obtain ⟨bs, n, c⟩ := b
  unfold appendBits Builder.appendBits
  cases Builder.noSpurious w len with
  | none => rfl
  | some _ =>
    rw [bind_pure_some, bind_pure_some]
    by_cases h0 : len = 0
    · rw [if_pos h0, if_pos h0]; rfl
    · rw [if_neg h0, if_neg h0]
      show (appendWords (beside v ⟨bs, n + len, c⟩) (n % 64) w len).bind _ = Option.map _ (if n % 64 = 0 then _ else _)
      unfold appendWords
      by_cases h : n % 64 = 0
      · rw [if_pos h, if_pos h, Option.bind_some]
        show (Builder.back (bs ++ [w])).bind _ = Option.map _ ((Builder.back (bs ++ [w])).bind _)
        cases Builder.back (bs ++ [w]) <;> rfl
      · rw [if_neg h, if_neg h]
        show ((shl w (n % 64)).bind _).bind _ = Option.map _ ((shl w (n % 64)).bind _)
        cases shl w (n % 64) with
        | none => rfl
        | some x =>
          rw [Option.bind_some, Option.bind_some]
          show (((beside v ⟨bs, n + len, c⟩).orCur x).bind _).bind _ = Option.map _ ((Builder.orCur bs c x).bind _)
          rw [orCur_beside]
          cases Builder.orCur bs c x with
          | none => rfl
          | some bs' =>
            rw [Option.map_some, Option.bind_some, Option.bind_some]
            by_cases hl : len > 64 - n % 64
            · rw [if_pos hl, if_pos hl]
              show ((shr w (64 - n % 64)).bind _).bind _ = Option.map _ ((shr w (64 - n % 64)).bind _)
              cases shr w (64 - n % 64) with
              | none => rfl
              | some y =>
                rw [Option.bind_some, Option.bind_some]
                show (Builder.back (bs' ++ [y])).bind _ = Option.map _ ((Builder.back (bs' ++ [y])).bind _)
                cases Builder.back (bs' ++ [y]) <;> rfl
            · rw [if_neg hl, if_neg hl]
              show (Builder.back bs').bind _ = Option.map _ ((Builder.back bs').bind _)
              cases Builder.back bs' <;> rfl

theorem oneExtendLoop_beside (v : BitVector) : ∀ (fuel : Nat) (b : Builder) (n : Nat),
    oneExtendLoop fuel (beside v b) n = (Builder.oneExtendLoop fuel b n).map (beside v) := by
  intro fuel
  induction fuel with
  | zero =>
    intro b n
    unfold oneExtendLoop Builder.oneExtendLoop
    split
    · rfl
    · split
      · cases shr (BitVec.allOnes 64) (64 - n) with
        | none => rfl
        | some w => exact appendBits_beside v b w n
      · rfl
  | succ fuel ih =>
    intro b n
    unfold oneExtendLoop Builder.oneExtendLoop
    split
    · show ((beside v b).appendBits _ _).bind _ = Option.map _ ((b.appendBits _ _).bind _)
      rw [appendBits_beside]
      cases b.appendBits (BitVec.allOnes 64) 64 with
      | none => rfl
      | some b' => exact ih b' _
    · split
      · cases shr (BitVec.allOnes 64) (64 - n) with
        | none => rfl
        | some w => exact appendBits_beside v b w n
      · rfl

theorem step_beside (v : BitVector) (b : Builder) (op : Op) : (beside v b).step op = (b.perform op).map (beside v) := by
  cases op with
  | pushBack x => exact pushBack_beside v b x
  | appendBits w n => exact appendBits_beside v b w n
  | oneExtend n => exact oneExtendLoop_beside v n b n
  | set p x => exact via_beside v b (·.set p x)
  | setBits p w n => exact via_beside v b (·.setBits p w n)
  | zeroExtend n => exact via_beside v b (·.zeroExtend n)
  | append r => exact via_beside v b (·.append r)
  | reverse => exact via_beside v b (·.reverse)
  | reserve r => exact via_beside v b (·.reserve r)

theorem run_beside (v : BitVector) (ops : List Op) : ∀ b : Builder, (beside v b).run ops = (ops.foldlM Builder.perform b).map (beside v) := by
  induction ops with
  | nil => intro b; rfl
  | cons op ops ih =>
    intro b
    rw [List.foldlM_cons]
    unfold run
    rw [step_beside]
    cases b.perform op with
    | none => rfl
    | some b' => rw [Option.map_some, bind_pure_some, bind_pure_some]; exact ih b'

end Spent

/-- **C69**: once `m_cur_word` no longer points into the vector (after `zero_extend` at the latest, see `C69_zero_extend`), the builder does exactly
what a builder with the same words and size does that was never made into a vector, undefined behaviour included, and the vector stays as it is. -/
theorem C69_free (s : Spent) (h : ∀ i, s.cur ≠ .lent i) (ops : List Spent.Op) :
    (s.run ops).map Spent.builder = ops.foldlM Builder.perform s.builder ∧
    ∀ s', s.run ops = some s' → s'.vec = s.vec ∧ ∀ i, s'.cur ≠ .lent i := by
  have e := Spent.Free.eq h
  have hr := Spent.run_beside s.vec ops s.builder
  rw [← e] at hr
  rw [hr]
  constructor
  · rw [Option.map_map]
    cases ops.foldlM Builder.perform s.builder with
    | none => rfl
    | some b => exact congrArg some (Spent.beside_builder _ _)
  · intro s' hs'
    rw [Option.map_eq_some_iff] at hs'
    obtain ⟨b, _, rfl⟩ := hs'
    exact ⟨rfl, Spent.beside_free _ _⟩

/-- `C69_free` with a history that crosses a word boundary -/
example : ∀ i, (⟨⟨3, [5#64]⟩, [0#64], 60, .own 0⟩ : Spent).cur ≠ .lent i := by simp
example : (⟨⟨3, [5#64]⟩, [0#64], 60, .own 0⟩ : Spent).run [.appendBits 0x1f#64 5, .oneExtend 70, .pushBack true] =
    some ⟨⟨3, [5#64]⟩, [0xf000000000000000#64, 0xffffffffffffffff#64, 0xff#64], 136, .own 2⟩ := by decide +kernel

/-- a history in which the pointer into the vector is used, given up and replaced -/
example : (Spent.consume ⟨[5#64], 3, some 0⟩ >>= fun s =>
      s.run [.pushBack true, .reverse, .reserve true, .appendBits 0x3ffffffffffffffe#64 62, .set 1 true, .zeroExtend 7]) =
    some ⟨⟨3, [0xffffffffffffffed#64]⟩, [0x3#64, 0#64], 73, .own 1⟩ := by decide +kernel

end Succinct
