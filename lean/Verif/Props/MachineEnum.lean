import Verif.Lemmas.MachineSeq
import Verif.Props.MachineEF
import Verif.Props.Enumerator
import Verif.Props.Gamma

/-!
# C76: the enumerators, the Elias–Fano lists and the gamma vectors in arithmetic modulo `2^64`

`Verif/Model/MachineEnum.lean` runs them with wrapping 64-bit words, counters of the enumerators included.  All
sizes, indices, arguments and answers are 64-bit words.
-/
namespace Succinct
open Spec
open Machine (W)
open RSBitVector (bind_pure_some)

/-- the operation a call performs -/
def Machine.EnumCall.op : Machine.EnumCall → EnumOp
  | .next => .next
  | .take n => .take n.toNat
  | .skipZeros => .skipZeros

/-- the number or bit that a returned word stands for -/
def Machine.EnumRet.out : Machine.EnumRet → EnumOut
  | .bit b => .bit b
  | .val w => .val w.toNat

/-- the operation a call performs -/
def Machine.UnaryCall.op : Machine.UnaryCall → UnaryOp
  | .next => .next
  | .skip k => .skip k.toNat
  | .skipNoMove k => .skipNoMove k.toNat
  | .skip0 k => .skip0 k.toNat

theorem bitsToNat_lt (l : List Bool) : bitsToNat l < 2^l.length := by
  induction l with
  | nil => decide
  | cons b l ih =>
    show b.toNat + 2 * bitsToNat l < 2^(l.length + 1)
    have : b.toNat ≤ 1 := Bool.toNat_le b
    rw [Nat.pow_succ]; omega

/-- answers and positions of a read stream are small -/
theorem stream_small {l : List Bool} {p : Nat} {ops : List EnumOp} {outs : List (EnumOut × Nat)} (h : StreamRun l p ops outs) (hl : l.length ≤ 2^63) :
    (outs.map fun r => (Machine.Enum.ret r.1, W r.2)).map (fun r => (r.1.out, r.2.toNat)) = outs := by
  induction h with
  | nil => rfl
  | @cons p op o p' ops outs hs _ ih =>
    rw [List.map_cons, List.map_cons, ih]
    congr 1
    cases hs with
    | @next b h1 =>
      obtain ⟨h1, _⟩ := List.getElem?_eq_some_iff.1 h1
      show (EnumOut.bit b, (W (p + 1)).toNat) = _
      rw [Machine.W_toNat _ (by omega)]
    | @take n h1 h2 =>
      have h3 : bitsToNat ((l.drop p).take n) < 2^64 :=
        Nat.lt_of_lt_of_le (bitsToNat_lt _) (Nat.pow_le_pow_right (by decide) (by rw [List.length_take]; omega))
      show (EnumOut.val (W _).toNat, (W (p + n)).toNat) = _
      rw [Machine.W_toNat _ h3, Machine.W_toNat _ (by omega)]
    | @skipZeros q h1 =>
      obtain ⟨h2, _⟩ := List.getElem?_eq_some_iff.1 h1.2.1
      show (EnumOut.val (W _).toNat, (W (q + 1)).toNat) = _
      rw [Machine.W_toNat _ (by omega), Machine.W_toNat _ (by omega)]

/-- **C76**, `bit_vector::enumerator`: on a vector built by a history, every history of calls without a `skip_zeros` directly after a
nonzero `take(64)` (see C07) gives the specified answers and positions. -/
theorem C76_enumerator (pr : Prog) (l : List Bool) (h : pr.spec = some l) (hr : pr.ReserveAligned) (hl : l.length ≤ 2^63) (p : Word)
    (ops : List Machine.EnumCall) (outs : List (EnumOut × Nat)) (hrun : StreamRun l p.toNat (ops.map (·.op)) outs)
    (hs : NoStale false (ops.map (·.op)) outs) :
    ∃ bv r, Machine.history pr = some bv ∧ Machine.Enum.run bv (Machine.Enum.new p) ops = some r ∧ r.map (fun x => (x.1.out, x.2.toNat)) = outs := by
  have hf := Machine.BitVector.Fits.of_rep (BitVector.ofRange_rep l) hl
  have e : ops.map (·.op) = ops.map Machine.Enum.spec := List.map_congr_left fun c _ => by cases c <;> rfl
  have := Machine.Enum.run_le hf ops (Enum.new p.toNat) (by show 0 < 2^64; decide) outs (by
    rw [← e]; exact C07_enumerator_partial l p.toNat _ outs hrun hs)
  rw [show Machine.Enum.enc (Enum.new p.toNat) = Machine.Enum.new p by
    show Machine.Enum.mk (W p.toNat) _ _ = Machine.Enum.mk p _ _
    rw [Machine.W_of]; rfl] at this
  exact ⟨_, _, Machine.history_eq pr l h hr hl, this, stream_small hrun hl⟩

/-- 66 bits; a run over the word boundary -/
def streamProg : Prog := .appendBits (.new 64 true) 2 2

example : streamProg.spec = some staleBits ∧ streamProg.ReserveAligned ∧
    StreamRun staleBits 60 ([Machine.EnumCall.take 5, .skipZeros].map (·.op)) [(.val 15, 65), (.val 0, 66)] ∧
    (Machine.history streamProg).bind (fun bv => Machine.Enum.run bv (Machine.Enum.new 60) [.take 5, .skipZeros]) =
      some [(.val 15, 65), (.val 0, 66)] := by
  refine ⟨by decide +kernel, trivial, .cons (.take (by decide) (by decide)) (.cons (.skipZeros (q := 65) ⟨by decide, by decide, fun r h1 h2 => by omega⟩) .nil),
    by decide +kernel⟩

/-- the pattern excluded in C07 gives the same wrong answer here: the one at 65 is reported after 0 zeros -/
example : (Machine.history streamProg).bind (fun bv => Machine.Enum.run bv (Machine.Enum.new 0) [.take 64, .skipZeros]) =
      some [(.val (BitVec.allOnes 64), 64), (.val 0, 65)] := by decide +kernel

theorem unary_small {l : List Bool} {c p : Nat} {ops : List UnaryOp} {outs : List (Option Nat × Nat)} (h : UnaryRunPos l c p ops outs)
    (hl : l.length ≤ 2^63) (hp : p ≤ l.length) :
    (outs.map fun r => (r.1.map W, W r.2)).map (fun r => (r.1.map BitVec.toNat, r.2.toNat)) = outs := by
  induction h with
  | nil => rfl
  | @cons c pos op o c' ops outs pos' hs hpos _ ih =>
    have hlt : ∀ {b : Bool} {q : Nat}, l[q]? = some b → q < l.length := fun h => (List.getElem?_eq_some_iff.1 h).1
    have key : pos' ≤ l.length ∧ ∀ q, o = some q → q < l.length := by
      cases hs with
      | next h1 =>
        have := hlt h1.2.1
        refine ⟨by simp only [] at hpos; omega, ?_⟩
        rintro q ⟨⟩
        exact this
      | skip h1 h2 => have := hlt h2.1; exact ⟨by simp only [] at hpos; omega, by simp⟩
      | skipNoMove h1 h2 =>
        have := hlt h2.1
        refine ⟨by simp only [] at hpos; omega, ?_⟩
        rintro q ⟨⟩
        exact this
      | skip0 h1 h2 => have := hlt h2.1; exact ⟨by simp only [] at hpos; omega, by simp⟩
    rw [List.map_cons, List.map_cons, ih key.1]
    congr 1
    show ((o.map W).map BitVec.toNat, (W pos').toNat) = _
    rw [Machine.W_toNat _ (by have := key.1; omega)]
    cases o with
    | none => rfl
    | some q =>
      have := key.2 q rfl
      show (some (W q).toNat, _) = _
      rw [Machine.W_toNat _ (by omega)]

/-- **C76**, `bit_vector::unary_enumerator`: every history of calls without a `skip0` directly after a `next` (see C08) gives the
specified answers and positions. -/
theorem C76_unary (pr : Prog) (l : List Bool) (h : pr.spec = some l) (hr : pr.ReserveAligned) (hl : l.length ≤ 2^63) (p : Word)
    (hp : p.toNat < l.length) (ops : List Machine.UnaryCall) (outs : List (Option Nat × Nat))
    (hrun : UnaryRunPos l p.toNat p.toNat (ops.map (·.op)) outs) (hs : NoSkip0AfterNext false (ops.map (·.op))) :
    ∃ bv e r, Machine.history pr = some bv ∧ Machine.UEnum.new bv.bits p = some e ∧ Machine.UEnum.run bv.bits e ops = some r ∧
      r.map (fun x => (x.1.map BitVec.toNat, x.2.toNat)) = outs := by
  have hf := Machine.BitVector.Fits.of_rep (BitVector.ofRange_rep l) hl
  have hb := Machine.BitVector.len_le hf
  have e : ops.map (·.op) = ops.map Machine.UEnum.spec := List.map_congr_left fun c _ => by cases c <;> rfl
  have k := (C08_unary_exact_partial l p.toNat hp _ outs hrun).2 hs
  simp only [Option.bind_eq_some_iff] at k
  obtain ⟨u, k1, k2⟩ := k
  have m1 := Machine.UEnum.new_le hb p.toNat u k1
  rw [Machine.W_of] at m1
  exact ⟨_, _, _, Machine.history_eq pr l h hr hl, m1, Machine.UEnum.run_le hb ops u outs (by rw [← e]; exact k2),
    unary_small hrun hl (Nat.le_of_lt hp)⟩

example : (Machine.history streamProg).bind (fun bv => (Machine.UEnum.new bv.bits 62).bind fun e =>
      Machine.UEnum.run bv.bits e [.next, .skip 1, .skipNoMove 0, .next]) =
    some [(some 62, 62), (none, 65), (some 65, 65), (some 65, 65)] ∧
    UnaryRunPos staleBits 62 62 ([Machine.UnaryCall.next, .skip 1, .skipNoMove 0, .next].map (·.op))
      [(some 62, 62), (none, 65), (some 65, 65), (some 65, 65)] := by
  refine ⟨by decide +kernel, .cons 62 (.next ⟨by decide, by decide, fun r h1 h2 => by omega⟩) rfl (.cons 65 (.skip (by decide) ⟨by decide, by decide⟩) rfl
    (.cons 65 (.skipNoMove (by decide) ⟨by decide, by decide⟩) rfl (.cons 65 (.next ⟨by decide, by decide, fun r h1 h2 => by omega⟩) rfl .nil)))⟩

/-- **C76**, `elias_fano::select_enumerator`. -/
theorem C76_select_enumerator (n : Word) (m : Nat) (xs : List Word) (h : Storable n m xs) (hm : m ≤ 2^61) (h0 : m = 0 → n.toNat + 2 ≤ 2^63)
    (wr : Bool) :
    ∃ ef, Machine.EliasFano.ofSeq n (W m) xs wr = some ef ∧ ∀ (i : Word) (k : Nat), i.toNat < xs.length → i.toNat + k ≤ xs.length →
      ∃ e, Machine.EliasFano.SelEnum.new ef i = some e ∧ Machine.EliasFano.SelEnum.run ef k e = some ((xs.drop i.toNat).take k) := by
  obtain ⟨ef, hb, e, g, _, em, s⟩ := Machine.EliasFano.ofSeq_eq n m xs h hm h0 wr
  refine ⟨_, em, fun i k hi hk => ?_⟩
  obtain ⟨se, e1, g1⟩ := EliasFano.SelEnum.new_ok g i.toNat hi
  obtain ⟨k1, k2⟩ := Machine.EliasFano.SelEnum.new_le s i.toNat
  have m1 := k1 _ e1
  rw [Machine.W_of] at m1
  exact ⟨_, m1, Machine.EliasFano.SelEnum.run_le s k se (k2 _ e1) _ (EliasFano.SelEnum.run_ok g k i.toNat hk se g1)⟩

example : (Machine.EliasFano.ofSeq 31 6 [5, 5, 17, 29, 29, 30] false).bind (fun ef => (Machine.EliasFano.SelEnum.new ef 1).bind
    (Machine.EliasFano.SelEnum.run ef 5)) = some [5, 17, 29, 29, 30] := by decide +kernel

/-- **C76**, `elias_fano_list`; an index out of range is rejected. -/
theorem C76_list (v : List Word) (hs : (v.map BitVec.toNat).sum < 2^64 - 1) (hl : v.length ≤ 2^61) :
    ∃ t, Machine.EFList.build v = some t ∧ (Machine.EFList.size t).toNat = v.length ∧
      (Machine.EFList.sum t).toNat = (v.map BitVec.toNat).sum ∧ ∀ ov (i : Word), Machine.EFList.get ov t i = v[i.toNat]? := by
  obtain ⟨t, hb, e, g, m, s⟩ := Machine.EFList.build_eq v hs hl
  obtain ⟨t', e', c1, c2, c3⟩ := C26_list v hs (by omega)
  obtain rfl := Option.some.inj (e.symm.trans e')
  have hp : t.ef.d1.positions = v.length := c1
  refine ⟨_, m, ?_, c2, fun ov i => ?_⟩
  · show (W t.ef.d1.positions).toNat = _
    rw [Machine.W_toNat _ (by omega), hp]
  · by_cases hi : i.toNat < v.length
    · rw [List.getElem?_eq_getElem hi]
      have c4 := c3 ov i.toNat hi
      rw [List.getElem?_eq_getElem hi] at c4
      have := Machine.EliasFano.delta_some ov s i.toNat i.isLt _ (fun p hp => by
        have := Machine.EliasFano.sel1_lt s g i.toNat (by rw [EFList.psums_length]; exact hi) p hp; omega) c4
      rwa [Machine.W_of] at this
    · rw [List.getElem?_eq_none (by omega)]
      exact Machine.EliasFano.delta_none ov s g i (by rw [EFList.psums_length]; omega)

example : (Machine.EFList.build [5, 0, 1000000, 7]).map (fun t => (Machine.EFList.get (fun _ _ => 0) t 2, Machine.EFList.get (fun _ _ => 0) t 4,
    Machine.EFList.sum t)) = some (some 1000000, none, 1000012) := by decide +kernel

/-- The bound on the sum is needed in the wrapping arithmetic too: `s + 1` wraps to 0. -/
theorem C76_list_sum_sharp : Machine.EFList.build [BitVec.allOnes 64] = none := by decide +kernel

/-- **C76**, `elias_fano_compressed_list`; an index out of range is rejected, `2^64 - 1` included. -/
theorem C76_compressed_list (v : List Word) (hv : ∀ x ∈ v, x ≠ BitVec.allOnes 64) (hl : v.length < 2^57) :
    ∃ t, Machine.EFCompressedList.build v = some t ∧ t.size.toNat = v.length ∧ ∀ ov (i : Word), t.get ov i = v[i.toNat]? := by
  obtain ⟨t, hb, n, e, g, r, m, s, f⟩ := Machine.EFCompressedList.build_eq v hv hl
  have hlen : (0#64 :: EFCompressedList.offs 0 v).length = v.length + 1 := by rw [List.length_cons, EFCompressedList.offs_length]
  refine ⟨_, m, ?_, fun ov i => ?_⟩
  · show (W t.ef.d1.positions - 1).toNat = _
    rw [show (1 : Word) = W 1 from rfl, ← Machine.W_sub _ _ (by rw [g.ones, hlen]; omega), Machine.W_toNat _ (by rw [g.ones, hlen]; omega), g.ones, hlen]
    rfl
  · by_cases hi : i.toNat < v.length
    · rw [List.getElem?_eq_getElem hi]
      have c := EFCompressedList.get_eq ov v hv hl t n hb g r i.toNat hi
      unfold EFCompressedList.get at c
      simp only [Option.bind_eq_bind, Option.bind_eq_some_iff] at c
      obtain ⟨⟨a, b⟩, c1, one, c2, x, c3, c4⟩ := c
      have m1 := Machine.EliasFano.selectRange_some ov s i.toNat _ (fun p hp => by
        have := Machine.EliasFano.sel1_lt s g i.toNat (by rw [hlen]; omega) p hp; omega) c1
      rw [Machine.W_of] at m1
      unfold Machine.EFCompressedList.get
      rw [show (Machine.EFCompressedList.enc t).ef = Machine.EliasFano.enc t.ef from rfl, m1, bind_pure_some]
      simp only []
      rw [c2, bind_pure_some, show (Machine.EFCompressedList.enc t).bits = Machine.BitVector.enc t.bits from rfl,
        Machine.BitVector.getBits_eq ov _ f _ _ (Nat.le_of_lt (Machine.shl_lt c2)), c3]
      exact c4
    · rw [List.getElem?_eq_none (by omega)]
      unfold Machine.EFCompressedList.get
      rw [show (Machine.EFCompressedList.enc t).ef = Machine.EliasFano.enc t.ef from rfl,
        Machine.EliasFano.selectRange_none ov s g i (by rw [hlen]; omega)]
      rfl

example : (Machine.EFCompressedList.build [5, 0, 1000000, 0xfffffffffffffffe]).map (fun t => (t.get (fun _ _ => 0) 3, t.get (fun _ _ => 0) (BitVec.allOnes 64),
    t.size)) = some (some 0xfffffffffffffffe, none, 4) := by decide +kernel

/-- **C76**, `gamma_vector` and its forward enumerator. -/
theorem C76_gamma_vector (v : List Word) (hv : ∀ x ∈ v, x ≠ BitVec.allOnes 64) (hl : v.length ≤ 2^56) :
    ∃ g, Machine.GammaVector.build v = some g ∧ g.size.toNat = v.length ∧
      (∀ ov (i : Word), i.toNat < v.length → Machine.GammaVector.get ov g i = v[i.toNat]?) ∧
      ∀ (i : Word) (k : Nat), i.toNat < v.length → i.toNat + k ≤ v.length →
        ∃ e, Machine.GammaVector.enumNew g i = some e ∧ Machine.GammaVector.enumRun g k e = some ((v.drop i.toNat).take k) := by
  obtain ⟨g, e, h, m, s⟩ := Machine.GammaVector.build_eq v hv hl
  refine ⟨_, m, ?_, fun ov i hi => ?_, fun i k hi hk => ?_⟩
  · rw [Machine.GammaVector.size_W _ h.size_eq, Machine.W_toNat _ (by omega)]
  · have := Machine.GammaVector.get_le s ov i.toNat _ (GammaVector.get_eq ov h i.toNat hi)
    rw [Machine.W_of] at this
    rw [this, List.getElem?_eq_getElem hi]; rfl
  · obtain ⟨en, e1, g1⟩ := GammaVector.enumNew_ok h i.toNat hi
    obtain ⟨k1, k2⟩ := Machine.GammaVector.enumNew_le s i.toNat i.isLt
    have m1 := k1 _ e1
    rw [Machine.W_of] at m1
    exact ⟨_, m1, Machine.GammaVector.enumRun_le s k en (k2 _ e1) _ (GammaVector.enumRun_ok h k i.toNat hk en g1)⟩

example : (Machine.GammaVector.build [5, 0, 1000000, 0xfffffffffffffffe, 1]).bind
    (fun g => (Machine.GammaVector.enumNew g 1).bind (Machine.GammaVector.enumRun g 4)) = some [0, 1000000, 0xfffffffffffffffe, 1] := by
  decide +kernel

/-- **C76**, `gamma_bit_vector` and its forward enumerator with `next` (`none`) and `skip(k)` (`some k`). -/
theorem C76_gamma_bit_vector (v : List Word) (hv : ∀ x ∈ v, x.toNat < 2^64 - 2) (hl : v.length ≤ 2^56) :
    ∃ g, Machine.GammaBitVector.build v = some g ∧ g.size.toNat = v.length ∧
      (∀ ov (i : Word), i.toNat < v.length → Machine.GammaBitVector.get ov g i = v[i.toNat]?) ∧
      ∀ (i : Word) (ops : List (Option Word)) (r : List Word), i.toNat < v.length →
        fwdSpec v (ops.map (Option.map BitVec.toNat)) i.toNat = some r →
        ∃ e, Machine.GammaBitVector.enumNew g i = some e ∧ Machine.GammaBitVector.enumRun g ops e = some r := by
  obtain ⟨g, e, h, hp, m, s⟩ := Machine.GammaBitVector.build_eq v hv hl
  obtain ⟨g', e', hen⟩ := C30_gamma_bit_vector_enum v hv
  obtain rfl := Option.some.inj (e.symm.trans e')
  refine ⟨_, m, ?_, fun ov i hi => ?_, fun i ops r hi hr => ?_⟩
  · rw [Machine.GammaVector.size_W _ h.size_eq, Machine.W_toNat _ (by omega)]
  · have := Machine.GammaBitVector.get_le s ov i.toNat _ (GammaBitVector.get_eq ov h hp i.toNat hi)
    rw [Machine.W_of] at this
    rw [this, List.getElem?_eq_getElem hi]; rfl
  · obtain ⟨en, e1, e2⟩ := hen _ i.toNat r hi hr
    obtain ⟨k1, k2⟩ := Machine.GammaBitVector.enumNew_le s i.toNat i.isLt
    have m1 := k1 _ e1
    rw [Machine.W_of] at m1
    exact ⟨_, m1, Machine.GammaBitVector.enumRun_le s ops en (k2 _ e1) _ e2⟩

example : (Machine.GammaBitVector.build [5, 0, 1000000, 0xfffffffffffffffd, 1]).bind
    (fun g => (Machine.GammaBitVector.enumNew g 0).bind (Machine.GammaBitVector.enumRun g [none, some 2, none, none])) =
    some [5, 0xfffffffffffffffd, 1] ∧
    fwdSpec [5, 0, 1000000, 0xfffffffffffffffd, 1] ([none, some 2, none, none] : List (Option Nat)) 0 = some [5, 0xfffffffffffffffd, 1] := by
  decide +kernel

end Succinct
