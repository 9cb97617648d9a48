import Verif.Model.MachineEnum
import Verif.Lemmas.MachineEF
import Verif.Lemmas.Gamma

/-! # The 64-bit enumerators simulate the models over natural numbers

`Le m x e`: whenever the model over natural numbers has an outcome, the 64-bit code has the same one. -/
namespace Succinct
namespace Machine
open Broadword
open Succinct.RSBitVector (bind_pure_some)

def Le {α β : Type} (m : Option β) (x : Option α) (e : α → β) : Prop := ∀ r, x = some r → m = some (e r)

theorem Le.bind {α β α' β' : Type} {m : Option α'} {x : Option α} {e : α → α'} {f : α' → Option β'} {g : α → Option β} {e' : β → β'}
    (h : Le m x e) (k : ∀ a, x = some a → Le (f (e a)) (g a) e') : Le (m >>= f) (x >>= g) e' := by
  intro r hr
  cases hx : x with
  | none => rw [hx] at hr; cases hr
  | some a =>
    rw [h a hx, bind_pure_some]
    rw [hx, bind_pure_some] at hr
    exact k a hx r hr

theorem Le.pure {α β : Type} {a : α} {b : β} {e : α → β} (h : b = e a) : Le (some b) (some a) e := by
  intro r hr; obtain rfl := Option.some.inj hr; rw [h]

theorem Le.assert {α β : Type} {p q : Prop} [Decidable p] [Decidable q] {f : Unit → Option β} {g : Unit → Option α} {e : α → β}
    (h : q → p) (k : q → Le (f ()) (g ()) e) : Le (assertP p >>= f) (assertP q >>= g) e := by
  intro r hr
  by_cases hq : q
  · rw [assert_yes hq, bind_pure_some] at hr
    rw [assert_yes (h hq), bind_pure_some]
    exact k hq r hr
  · rw [assertP_none hq] at hr; cases hr

/-- a subtraction of the model over natural numbers that the 64-bit code does in wrapping arithmetic -/
theorem Le.sub {α β : Type} {m : Option β} {a b : Nat} {g : Nat → Option α} {e : α → β} (k : b ≤ a → Le m (g (a - b)) e) :
    Le m (subU a b >>= g) e := by
  intro r hr
  unfold subU at hr
  split at hr
  · rename_i h
    exact k h r hr
  · cases hr

theorem Le.refl {α : Type} (x : Option α) : Le x x id := fun _ h => h
theorem Le.of_eq {α β : Type} {m : Option β} {x : Option α} {e : α → β} (h : m = x.map e) : Le m x e := by
  intro r hr; rw [h, hr]; rfl
theorem Le.same {α : Type} {m x : Option α} (h : ∀ a, x = some a → m = some a) : Le m x id := h

theorem W_mask (p : Nat) : W p &&& ~~~63 = W (64 * (p / 64)) := by
  apply BitVec.eq_of_getLsbD_eq
  intro i hi
  rw [BitVec.getLsbD_and, BitVec.getLsbD_ofNat, BitVec.getLsbD_ofNat, BitVec.getLsbD_not]
  have h63 : (63 : Word).getLsbD i = decide (i < 6) := by
    revert hi
    have : ∀ j : Fin 64, (63 : Word).getLsbD j = decide (j.val < 6) := by decide +kernel
    exact fun hi => this ⟨i, hi⟩
  rw [h63, show 64 * (p / 64) = 2^6 * (p / 2^6) from rfl, Nat.testBit_two_pow_mul, Nat.testBit_div_two_pow]
  by_cases h6 : i < 6
  · simp [h6, Nat.not_le.2 h6]
  · simp [h6, Nat.not_lt.1 h6, hi]

theorem rd_W {α : Type} {v : List α} (hv : v.length ≤ 2^57) (p : Nat) : Le (at_ v (W p / 64)) (rd v (p / 64)) id := by
  apply Le.same
  intro a h
  have := rd_lt h
  unfold at_
  rw [div64, W_toNat p (by omega)]; exact h

namespace BitVector

theorem len_le {v : Succinct.BitVector} (h : Fits v) : v.bits.length ≤ 2^57 := by
  have h1 := h.size; have h2 := h.len; omega

theorem getWord_W {v : Succinct.BitVector} (h : Fits v) (p : Nat) : Le (getWord (enc v) (W p)) (v.getWord p) id := by
  apply Le.same
  intro a ha
  have hp : p < v.size := by
    unfold Succinct.BitVector.getWord at ha
    by_cases hp : p < v.size
    · exact hp
    · rw [assertP_none hp] at ha; cases ha
  rw [getWord_eq v h, W_toNat p (by have := h.size; omega)]; exact ha

theorem access_W {v : Succinct.BitVector} (h : Fits v) (p : Nat) : Le (access (enc v) (W p)) (v.access p) id := by
  apply Le.same
  intro a ha
  have hp : p < v.size := by
    unfold Succinct.BitVector.access at ha
    by_cases hp : p < v.size
    · exact hp
    · rw [assertP_none hp] at ha; cases ha
  rw [access_eq v h, W_toNat p (by have := h.size; omega)]; exact ha

theorem getBits_W (ov : Word → Nat → Word) {v : Succinct.BitVector} (h : Fits v) (p len : Nat) (hlen : len ≤ 64) :
    Le (getBits ov (enc v) (W p) (W len)) (v.getBits ov p len) id := by
  apply Le.same
  intro a ha
  have hp : p + len ≤ v.size := by
    unfold Succinct.BitVector.getBits at ha
    by_cases hp : p + len ≤ v.size
    · exact hp
    · rw [assertP_none hp] at ha; cases ha
  have hs := h.size
  rw [getBits_eq ov v h _ _ (by rw [W_toNat len (by omega)]; exact hlen), W_toNat p (by omega), W_toNat len (by omega)]; exact ha

end BitVector

/-! ## `bit_vector::enumerator` -/
namespace Enum

def enc (e : Succinct.Enum) : Enum := ⟨W e.pos, e.buf, W e.avail⟩

theorem W_wsub (a b : Nat) (hb : b ≤ 2^64) : W (wsub a b) = W a - W b := by
  unfold wsub
  split
  · exact W_sub _ _ (by assumption)
  · rw [W_sub _ _ (by omega), W_add, show W (2^64) = 0 from rfl]; simp

theorem wsub_lt (a b : Nat) (ha : a < 2^64) : wsub a b < 2^64 := by unfold wsub; split <;> omega

variable {v : Succinct.BitVector} (hf : BitVector.Fits v)
include hf

theorem fillBuf_le (e : Succinct.Enum) : Le (fillBuf (BitVector.enc v) (enc e)) (Succinct.Enum.fillBuf v e) enc := by
  unfold fillBuf Succinct.Enum.fillBuf
  exact (BitVector.getWord_W hf e.pos).bind fun w _ => .pure rfl

omit hf in
theorem fillBuf_avail {e e' : Succinct.Enum} (h : Succinct.Enum.fillBuf v e = some e') : e'.avail < 2^64 := by
  unfold Succinct.Enum.fillBuf at h
  simp only [Option.bind_eq_bind, Option.bind_eq_some_iff] at h
  obtain ⟨w, _, h⟩ := h
  obtain rfl := Option.some.inj h
  show 64 < 2^64
  decide

omit hf in
theorem next_unfold (v : BitVector) (e : Enum) : next v e = ((if e.avail = 0 then fillBuf v e else some e) >>= fun e =>
    shr e.buf 1 >>= fun buf => pure (e.buf.getLsbD 0, ⟨e.pos + 1, buf, e.avail - 1⟩)) := by
  unfold next; split <;> rfl

omit hf in
theorem next_unfold' (v : Succinct.BitVector) (e : Succinct.Enum) : Succinct.Enum.next v e =
    ((if e.avail = 0 then Succinct.Enum.fillBuf v e else some e) >>= fun e =>
    shr e.buf 1 >>= fun buf => pure (e.buf.getLsbD 0, ⟨e.pos + 1, buf, wsub e.avail 1⟩)) := by
  unfold Succinct.Enum.next; split <;> rfl

omit hf in
theorem take_unfold (v : BitVector) (e : Enum) (l : Word) : take v e l = ((if e.avail < l then fillBuf v e else some e) >>= fun e =>
    takeAvail e l) := by
  unfold take; split <;> rfl

omit hf in
theorem take_unfold' (v : Succinct.BitVector) (e : Succinct.Enum) (l : Nat) : Succinct.Enum.take v e l =
    ((if e.avail < l then Succinct.Enum.fillBuf v e else some e) >>= fun e => Succinct.Enum.takeAvail e l) := by
  unfold Succinct.Enum.take; split <;> rfl

theorem next_le (e : Succinct.Enum) (he : e.avail < 2^64) :
    Le (next (BitVector.enc v) (enc e)) (Succinct.Enum.next v e) (fun r => (r.1, enc r.2)) ∧
    ∀ r, Succinct.Enum.next v e = some r → r.2.avail < 2^64 := by
  have key : Le (if (enc e).avail = 0 then fillBuf (BitVector.enc v) (enc e) else some (enc e))
      (if e.avail = 0 then Succinct.Enum.fillBuf v e else some e) enc := by
    have hc : (enc e).avail = 0 ↔ e.avail = 0 := W_inj _ 0 he (by decide)
    simp only [hc]
    split
    · exact fillBuf_le hf e
    · exact .pure rfl
  have bnd : ∀ e', (if e.avail = 0 then Succinct.Enum.fillBuf v e else some e) = some e' → e'.avail < 2^64 := by
    intro e' h
    split at h
    · exact fillBuf_avail h
    · obtain rfl := Option.some.inj h; exact he
  constructor
  · rw [next_unfold, next_unfold']
    refine key.bind fun e' h => ?_
    refine (Le.refl _).bind fun b hb => ?_
    apply Le.pure
    show (_, Enum.mk _ _ _) = (_, Enum.mk _ _ _)
    rw [W_wsub _ _ (by omega), W_add]; rfl
  · intro r h
    rw [next_unfold'] at h
    simp only [Option.bind_eq_bind, Option.bind_eq_some_iff] at h
    obtain ⟨e', h1, b, h2, h⟩ := h
    obtain rfl := Option.some.inj h
    exact wsub_lt _ _ (bnd _ h1)

omit hf in
theorem takeAvail_le (e : Succinct.Enum) (he : e.avail < 2^64) (n : Nat) (hn : n < 2^64) :
    Le (takeAvail (enc e) (W n)) (Succinct.Enum.takeAvail e n) (fun r => (r.1, enc r.2)) ∧
    ∀ r, Succinct.Enum.takeAvail e n = some r → r.2.avail < 2^64 := by
  have e64 : (W n ≠ 64) = (n ≠ 64) := by
    rw [ne_eq, ne_eq, show (64 : Word) = W 64 from rfl, W_inj n 64 hn (by decide)]
  have es : W (wsub e.avail n) = W e.avail - W n := W_wsub _ _ (by omega)
  unfold takeAvail Succinct.Enum.takeAvail
  simp only [e64, W_toNat n hn]
  constructor
  · split
    · refine (Le.refl _).bind fun m hm => ?_
      refine (Le.refl _).bind fun b hb => ?_
      apply Le.pure
      show (_, Enum.mk _ _ _) = (_, Enum.mk _ _ _)
      rw [es, W_add]; rfl
    · apply Le.pure
      show (_, Enum.mk _ _ _) = (_, Enum.mk _ _ _)
      rw [es, W_add]; rfl
  · intro r h
    split at h
    · simp only [Option.bind_eq_bind, Option.bind_eq_some_iff] at h
      obtain ⟨m, _, b, _, h⟩ := h
      obtain rfl := Option.some.inj h
      exact wsub_lt _ _ he
    · obtain rfl := Option.some.inj h
      exact wsub_lt _ _ he

theorem take_le (e : Succinct.Enum) (he : e.avail < 2^64) (n : Nat) (hn : n < 2^64) :
    Le (take (BitVector.enc v) (enc e) (W n)) (Succinct.Enum.take v e n) (fun r => (r.1, enc r.2)) ∧
    ∀ r, Succinct.Enum.take v e n = some r → r.2.avail < 2^64 := by
  have key : Le (if (enc e).avail < W n then fillBuf (BitVector.enc v) (enc e) else some (enc e))
      (if e.avail < n then Succinct.Enum.fillBuf v e else some e) enc := by
    have hc : (enc e).avail < W n ↔ e.avail < n := W_lt _ _ he hn
    simp only [hc]
    split
    · exact fillBuf_le hf e
    · exact .pure rfl
  have bnd : ∀ e', (if e.avail < n then Succinct.Enum.fillBuf v e else some e) = some e' → e'.avail < 2^64 := by
    intro e' h
    split at h
    · exact fillBuf_avail h
    · obtain rfl := Option.some.inj h; exact he
  constructor
  · rw [take_unfold, take_unfold']
    exact key.bind fun e' h => (takeAvail_le e' (bnd _ h) n hn).1
  · intro r h
    rw [take_unfold'] at h
    simp only [Option.bind_eq_bind, Option.bind_eq_some_iff] at h
    obtain ⟨e', h1, h⟩ := h
    exact (takeAvail_le e' (bnd _ h1) n hn).2 r h

theorem skipZerosLoop_le (fuel : Nat) (e : Succinct.Enum) (he : e.avail < 2^64) (zs : Nat) :
    Le (skipZerosLoop (BitVector.enc v) fuel (enc e) (W zs)) (Succinct.Enum.skipZerosLoop v fuel e zs) (fun r => (enc r.1, W r.2)) ∧
    ∀ r, Succinct.Enum.skipZerosLoop v fuel e zs = some r → r.1.avail < 2^64 := by
  induction fuel generalizing e zs with
  | zero =>
    unfold skipZerosLoop Succinct.Enum.skipZerosLoop
    rw [show (enc e).buf = e.buf from rfl]
    split
    · exact ⟨fun r h => (by cases h), fun r h => (by cases h)⟩
    · exact ⟨.pure rfl, fun r h => by obtain rfl := Option.some.inj h; exact he⟩
  | succ fuel ih =>
    unfold skipZerosLoop Succinct.Enum.skipZerosLoop
    rw [show (enc e).buf = e.buf from rfl]
    have ep : (⟨(enc e).pos + (enc e).avail, e.buf, 0⟩ : Enum) = enc ⟨e.pos + e.avail, e.buf, 0⟩ := by
      show Enum.mk _ _ _ = Enum.mk _ _ _
      rw [W_add]; rfl
    split
    · rw [ep]
      constructor
      · refine (fillBuf_le hf _).bind fun e' h => ?_
        rw [show W zs + (enc e).avail = W (zs + e.avail) from (W_add _ _).symm]
        exact (ih e' (fillBuf_avail h) _).1
      · intro r h
        simp only [Option.bind_eq_bind, Option.bind_eq_some_iff] at h
        obtain ⟨e', h1, h⟩ := h
        exact (ih e' (fillBuf_avail h1) _).2 r h
    · exact ⟨.pure rfl, fun r h => by obtain rfl := Option.some.inj h; exact he⟩

theorem skipZeros_le (e : Succinct.Enum) (he : e.avail < 2^64) :
    Le (skipZeros (BitVector.enc v) (enc e)) (Succinct.Enum.skipZeros v e) (fun r => (W r.1, enc r.2)) ∧
    ∀ r, Succinct.Enum.skipZeros v e = some r → r.2.avail < 2^64 := by
  have k := skipZerosLoop_le hf (v.bits.length + 2) e he 0
  constructor
  · unfold skipZeros Succinct.Enum.skipZeros
    refine k.1.bind fun a ha => ?_
    obtain ⟨e', zs⟩ := a
    refine (Le.refl _).bind fun l hl => ?_
    have hl64 := Darray.lsb_lt64 hl
    refine (Le.refl _).bind fun b hb => ?_
    refine (Le.refl _).bind fun b' hb' => ?_
    apply Le.pure
    show (_, Enum.mk _ _ _) = (_, Enum.mk _ _ _)
    rw [W_wsub _ _ (by omega), W_add, W_add, W_add]; rfl
  · intro r h
    unfold Succinct.Enum.skipZeros at h
    simp only [Option.bind_eq_bind, Option.bind_eq_some_iff] at h
    obtain ⟨⟨e', zs⟩, h1, l, h2, b, h3, b', h4, h⟩ := h
    obtain rfl := Option.some.inj h
    exact wsub_lt _ _ (k.2 _ h1)

omit hf in
/-- the call of the specification -/
def spec : EnumCall → Spec.EnumOp
  | .next => .next
  | .take n => .take n.toNat
  | .skipZeros => .skipZeros

omit hf in
/-- the answer in memory -/
def ret : Spec.EnumOut → EnumRet
  | .bit b => .bit b
  | .val n => .val (W n)

theorem step_le (e : Succinct.Enum) (he : e.avail < 2^64) (op : EnumCall) :
    Le (step (BitVector.enc v) (enc e) op) (Succinct.Enum.step v e (spec op)) (fun r => (ret r.1, enc r.2)) ∧
    ∀ r, Succinct.Enum.step v e (spec op) = some r → r.2.avail < 2^64 := by
  cases op with
  | next =>
    obtain ⟨k1, k2⟩ := next_le hf e he
    refine ⟨k1.bind fun a ha => .pure rfl, fun r h => ?_⟩
    simp only [spec, Succinct.Enum.step, Option.bind_eq_bind, Option.bind_eq_some_iff] at h
    obtain ⟨a, h1, h⟩ := h
    obtain rfl := Option.some.inj h
    exact k2 a h1
  | take n =>
    obtain ⟨k1, k2⟩ := take_le hf e he n.toNat n.isLt
    rw [W_of] at k1
    refine ⟨k1.bind fun a ha => .pure (by show (_, _) = (_, _); rw [ret, W_of]), fun r h => ?_⟩
    simp only [spec, Succinct.Enum.step, Option.bind_eq_bind, Option.bind_eq_some_iff] at h
    obtain ⟨a, h1, h⟩ := h
    obtain rfl := Option.some.inj h
    exact k2 a h1
  | skipZeros =>
    obtain ⟨k1, k2⟩ := skipZeros_le hf e he
    refine ⟨k1.bind fun a ha => .pure rfl, fun r h => ?_⟩
    simp only [spec, Succinct.Enum.step, Option.bind_eq_bind, Option.bind_eq_some_iff] at h
    obtain ⟨a, h1, h⟩ := h
    obtain rfl := Option.some.inj h
    exact k2 a h1

theorem run_le (ops : List EnumCall) : ∀ (e : Succinct.Enum), e.avail < 2^64 →
    Le (run (BitVector.enc v) (enc e) ops) (Succinct.Enum.run v e (ops.map spec)) (List.map fun r => (ret r.1, W r.2)) := by
  induction ops with
  | nil => intro e he; exact .pure rfl
  | cons op ops ih =>
    intro e he
    obtain ⟨k1, k2⟩ := step_le hf e he op
    show Le (step _ _ _ >>= _) (Succinct.Enum.step _ _ _ >>= _) _
    refine k1.bind fun a ha => ?_
    obtain ⟨o, e'⟩ := a
    exact (ih e' (k2 _ ha)).bind fun outs _ => .pure rfl

end Enum

/-! ## `bit_vector::unary_enumerator` -/
namespace UEnum

def enc (e : Succinct.UEnum) : UEnum := ⟨W e.position, e.buf⟩

variable {bits : List Word} (hb : bits.length ≤ 2^57)
include hb

theorem new_le (p : Nat) : Le (new bits (W p)) (Succinct.UEnum.new bits p) enc := by
  unfold new Succinct.UEnum.new
  refine (rd_W hb p).bind fun w _ => ?_
  rw [W_mod64, W_toNat _ (by omega)]
  exact (Le.refl _).bind fun m _ => .pure rfl

theorem rd_next (p : Nat) : Le (at_ bits ((W p + 64) / 64)) (rd bits ((p + 64) / 64)) id := by
  rw [show W p + 64 = W (p + 64) from (W_add _ _).symm]
  exact rd_W hb _

theorem nextLoop_le (fuel p : Nat) (buf : Word) :
    Le (nextLoop bits fuel (W p) buf) (Succinct.UEnum.nextLoop bits fuel p buf) (fun r => (W r.1, r.2)) := by
  induction fuel generalizing p buf with
  | zero =>
    unfold nextLoop Succinct.UEnum.nextLoop
    cases lsb buf with
    | some r => exact .pure rfl
    | none => exact fun r h => by cases h
  | succ fuel ih =>
    unfold nextLoop Succinct.UEnum.nextLoop
    cases lsb buf with
    | some r => exact .pure rfl
    | none =>
      refine (rd_next hb p).bind fun w _ => ?_
      rw [show W p + 64 = W (p + 64) from (W_add _ _).symm]
      exact ih _ _

theorem next_le (e : Succinct.UEnum) : Le (next bits (enc e)) (Succinct.UEnum.next bits e) (fun r => (W r.1, enc r.2)) := by
  unfold next Succinct.UEnum.next
  refine (nextLoop_le hb _ e.position e.buf).bind fun a _ => ?_
  obtain ⟨p, buf, r⟩ := a
  apply Le.pure
  simp only [W_mask, enc, W_add]

theorem popcount_le (w : Word) : popcount w ≤ 64 := by
  rw [popcount_eq]; exact cnt_le _ _

theorem skipLoop_le (neg : Bool) (k : Nat) (hk : k < 2^64) (fuel p skipped : Nat) (buf : Word) (hs : skipped + 64 * (fuel + 1) < 2^64) :
    Le (skipLoop neg bits (W k) fuel (W p) (W skipped) buf) (Succinct.UEnum.skipLoop neg bits k fuel p skipped buf)
      (fun r => (W r.1, W r.2.1, r.2.2)) := by
  induction fuel generalizing p skipped buf with
  | zero =>
    unfold skipLoop Succinct.UEnum.skipLoop
    have hp := popcount_le hb buf
    simp only [← W_add, W_le _ _ (show skipped + popcount buf < 2^64 by omega) hk]
    split
    · exact fun r h => by cases h
    · exact .pure rfl
  | succ fuel ih =>
    unfold skipLoop Succinct.UEnum.skipLoop
    have hp := popcount_le hb buf
    simp only [← W_add, W_le _ _ (show skipped + popcount buf < 2^64 by omega) hk]
    split
    · refine (rd_next hb p).bind fun w _ => ?_
      rw [show W p + 64 = W (p + 64) from (W_add _ _).symm]
      exact ih _ _ _ (by omega)
    · exact .pure rfl

theorem skipLoop_top (neg : Bool) (k : Nat) (hk : k < 2^64) (p : Nat) (buf : Word) :
    Le (skipLoop neg bits (W k) bits.length (W p) 0 buf) (Succinct.UEnum.skipLoop neg bits k bits.length p 0 buf)
      (fun r => (W r.1, W r.2.1, r.2.2)) :=
  skipLoop_le hb neg k hk _ p 0 buf (by omega)

omit hb in
theorem sub_W (k s : Nat) (hk : k < 2^64) (h : s ≤ k) : (W k - W s).toNat = k - s := by
  rw [← W_sub _ _ h, W_toNat _ (by omega)]

theorem skip_le (e : Succinct.UEnum) (k : Nat) (hk : k < 2^64) : Le (skip bits (enc e) (W k)) (Succinct.UEnum.skip bits e k) enc := by
  unfold skip Succinct.UEnum.skip
  refine (skipLoop_top hb false k hk e.position e.buf).bind fun a _ => ?_
  obtain ⟨p, s, buf⟩ := a
  refine Le.assert id fun _ => ?_
  refine Le.sub fun h => ?_
  simp only [sub_W k s hk h]
  refine (Le.refl _).bind fun r _ => ?_
  refine (Le.refl _).bind fun m _ => ?_
  apply Le.pure
  simp only [W_mask, enc, W_add]; rfl

theorem skipNoMove_le (e : Succinct.UEnum) (k : Nat) (hk : k < 2^64) :
    Le (skipNoMove bits (enc e) (W k)) (Succinct.UEnum.skipNoMove bits e k) W := by
  unfold skipNoMove Succinct.UEnum.skipNoMove
  refine (skipLoop_top hb false k hk e.position e.buf).bind fun a _ => ?_
  obtain ⟨p, s, buf⟩ := a
  refine Le.assert id fun _ => ?_
  refine Le.sub fun h => ?_
  simp only [sub_W k s hk h]
  refine (Le.refl _).bind fun r _ => ?_
  apply Le.pure
  simp only [W_mask, W_add]; rfl

theorem skip0_le (e : Succinct.UEnum) (k : Nat) (hk : k < 2^64) : Le (skip0 bits (enc e) (W k)) (Succinct.UEnum.skip0 bits e k) enc := by
  unfold skip0 Succinct.UEnum.skip0
  have em : ((enc e).position % 64).toNat = e.position % 64 := by
    show (W e.position % 64).toNat = _
    rw [W_mod64, W_toNat _ (by omega)]
  rw [em]
  refine (Le.refl _).bind fun m _ => ?_
  refine (skipLoop_top hb true k hk e.position _).bind fun a _ => ?_
  obtain ⟨p, s, buf⟩ := a
  refine Le.assert id fun _ => ?_
  refine Le.sub fun h => ?_
  simp only [sub_W k s hk h]
  refine (Le.refl _).bind fun r _ => ?_
  refine (Le.refl _).bind fun m _ => ?_
  apply Le.pure
  simp only [W_mask, enc, W_add]; rfl

omit hb in
/-- the call of the specification -/
def spec : UnaryCall → Spec.UnaryOp
  | .next => .next
  | .skip k => .skip k.toNat
  | .skipNoMove k => .skipNoMove k.toNat
  | .skip0 k => .skip0 k.toNat

theorem step_le (e : Succinct.UEnum) (op : UnaryCall) :
    Le (step bits (enc e) op) (Succinct.UEnum.step bits e (spec op)) (fun r => (r.1.map W, enc r.2)) := by
  cases op with
  | next => exact (next_le hb e).bind fun a _ => .pure rfl
  | skip k =>
    have := skip_le hb e k.toNat k.isLt
    rw [W_of] at this
    exact this.bind fun a _ => .pure rfl
  | skipNoMove k =>
    have := skipNoMove_le hb e k.toNat k.isLt
    rw [W_of] at this
    exact this.bind fun a _ => .pure rfl
  | skip0 k =>
    have := skip0_le hb e k.toNat k.isLt
    rw [W_of] at this
    exact this.bind fun a _ => .pure rfl

theorem run_le (ops : List UnaryCall) : ∀ (e : Succinct.UEnum),
    Le (run bits (enc e) ops) (Succinct.UEnum.runPos bits e (ops.map spec)) (List.map fun r => (r.1.map W, W r.2)) := by
  induction ops with
  | nil => intro e; exact .pure rfl
  | cons op ops ih =>
    intro e
    show Le (step _ _ _ >>= _) (Succinct.UEnum.step _ _ _ >>= _) _
    refine (step_le hb e op).bind fun a _ => ?_
    obtain ⟨o, e'⟩ := a
    exact (ih e').bind fun outs _ => .pure rfl

end UEnum
end Machine
end Succinct
