import Verif.Model.Checked
import Verif.Lemmas.Machine
import Verif.Lemmas.Select

/-! # Safety of the checked queries: bit vectors, darrays, Elias–Fano -/
namespace Succinct
namespace Checked
open Broadword
open Machine (vlen)

/-- neither an access out of bounds nor a loop without end; undefined arithmetic only if `ar` -/
def Safe {α : Type} (ar : Prop) : Run α → Prop
  | .ok _ => True
  | .abort => True
  | .mem => False
  | .arith => ar
  | .loop => False

theorem bind_def {α β : Type} (x : Run α) (f : α → Run β) : (x >>= f) = Run.bind x f := rfl
theorem pure_def {α : Type} (a : α) : (pure a : Run α) = .ok a := rfl

theorem Safe.bind {α β : Type} {ar : Prop} {x : Run α} {f : α → Run β} (hx : Safe ar x)
    (hf : ∀ a, x = .ok a → Safe ar (f a)) : Safe ar (x >>= f) := by
  cases x with
  | ok a => exact hf a rfl
  | abort => trivial
  | mem => exact hx
  | arith => exact hx
  | loop => exact hx

theorem Safe.pure {α : Type} {ar : Prop} (a : α) : Safe ar (Pure.pure a : Run α) := trivial

theorem Safe.mono {α : Type} {ar ar' : Prop} (h : ar → ar') {x : Run α} (hx : Safe ar x) : Safe ar' x := by
  cases x <;> first | trivial | exact hx | exact h hx

theorem Safe.chk {ar p : Prop} [Decidable p] : Safe ar (chk p) := by
  unfold Checked.chk
  split <;> trivial

theorem chk_ok {p : Prop} [Decidable p] {u : Unit} (h : chk p = .ok u) : p := by
  unfold Checked.chk at h
  split at h
  · assumption
  · cases h

theorem Safe.chk_bind {β : Type} {ar p : Prop} [Decidable p] {f : Unit → Run β} (hf : p → Safe ar (f ())) :
    Safe ar (Checked.chk p >>= f) := Safe.bind Safe.chk fun _ h => hf (chk_ok h)

theorem bind_ok {α β : Type} {x : Run α} {f : α → Run β} {b : β} (h : (x >>= f) = .ok b) : ∃ a, x = .ok a ∧ f a = .ok b := by
  cases x with
  | ok a => exact ⟨a, rfl, h⟩
  | abort => cases h
  | mem => cases h
  | arith => cases h
  | loop => cases h

theorem Safe.vat {α : Type} {ar : Prop} (v : List α) (i : Word) : Safe ar (vat v i) := by
  unfold Checked.vat
  refine Safe.chk_bind fun h => ?_
  unfold raw
  rw [List.getElem?_eq_getElem h]
  trivial

theorem vat_ok {α : Type} {v : List α} {i : Word} {x : α} (h : Checked.vat v i = .ok x) : i.toNat < v.length ∧ v[i.toNat]? = some x := by
  unfold Checked.vat at h
  obtain ⟨u, h1, h2⟩ := bind_ok h
  refine ⟨chk_ok h1, ?_⟩
  unfold raw at h2
  cases e : v[i.toNat]? with
  | none => rw [e] at h2; cases h2
  | some y => rw [e] at h2; cases h2; rfl

theorem Safe.sl {ar : Prop} {x : Word} {s : Nat} (h : s < 64 ∨ ar) : Safe ar (sl x s) := by
  unfold Checked.sl
  split
  · trivial
  · rcases h with h | h
    · contradiction
    · exact h

theorem Safe.sr {ar : Prop} {x : Word} {s : Nat} (h : s < 64 ∨ ar) : Safe ar (sr x s) := by
  unfold Checked.sr
  split
  · trivial
  · rcases h with h | h
    · contradiction
    · exact h

theorem selWord_safe {ar : Prop} (x : Word) (k : Nat) : Safe ar (selWord x k) := by
  unfold selWord
  refine Safe.chk_bind fun h => ?_
  rw [popcount_eq] at h
  obtain ⟨e, he, _⟩ := selectFinish_spec x k h _ (selectPlace_toNat x k h)
  rw [he]
  trivial

theorem lsbW_safe {ar : Prop} (x : Word) : Safe ar (lsbW x) := by
  unfold lsbW
  refine Safe.chk_bind fun h => ?_
  obtain ⟨i, hi⟩ := lsb_exists x h
  rw [hi]
  trivial

theorem lsbW_ok {x : Word} {l : Nat} (h : lsbW x = .ok l) : l < 64 := by
  unfold lsbW at h
  obtain ⟨_, _, h⟩ := bind_ok h
  cases e : lsb x with
  | none => rw [e] at h; cases h
  | some i => rw [e] at h; cases h; exact ((lsb_some x l).1 e).1

theorem mod64_lt (p : Word) : (p % 64).toNat < 64 := by
  rw [BitVec.toNat_umod]; exact Nat.mod_lt _ (by decide)

theorem sub_mod64_lt (p : Word) (h : p % 64 ≠ 0) : (64 - p % 64).toNat < 64 := by
  have h1 := mod64_lt p
  have h2 : (p % 64).toNat ≠ 0 := fun e => h (BitVec.eq_of_toNat_eq (by simpa using e))
  rw [BitVec.toNat_sub]
  have : (64 : Word).toNat = 64 := rfl
  omega

theorem sub_mod64_lt' (p : Word) : (64 - p % 64 - 1).toNat < 64 := by
  have h1 := mod64_lt p
  rw [BitVec.toNat_sub, BitVec.toNat_sub]
  have : (64 : Word).toNat = 64 := rfl
  have : (1 : Word).toNat = 1 := rfl
  omega

namespace BitVector

theorem access_safe (v : Machine.BitVector) (pos : Word) : Safe False (access v pos) := by
  unfold access
  refine Safe.chk_bind fun _ => Safe.chk_bind fun _ => Safe.bind (Safe.vat _ _) fun w _ => ?_
  exact Safe.bind (Safe.sr (.inl (mod64_lt _))) fun _ _ => Safe.pure _

theorem getBits_safe (ov : Word → Nat → Word) (v : Machine.BitVector) (pos len : Word) : Safe (64 < len.toNat) (getBits ov v pos len) := by
  unfold getBits
  refine Safe.chk_bind fun _ => ?_
  split
  · exact Safe.pure _
  · dsimp only
    split
    · refine Safe.bind (Safe.vat _ _) fun w _ => ?_
      exact Safe.bind (Safe.sr (.inl (mod64_lt _))) fun _ _ => Safe.pure _
    · rename_i h0 h1
      refine Safe.bind (Safe.vat _ _) fun w _ => ?_
      refine Safe.bind (Safe.sr (.inl (mod64_lt _))) fun _ _ => ?_
      refine Safe.bind (Safe.vat _ _) fun w _ => ?_
      refine Safe.bind (Safe.sl ?_) fun _ _ => Safe.pure _
      by_cases hl : 64 < len.toNat
      · exact .inr hl
      · refine .inl (sub_mod64_lt _ fun e => h1 ?_)
        rw [e, show (0 : Word) + len = len from BitVec.zero_add len, BitVec.le_def]
        have : (64 : Word).toNat = 64 := rfl
        omega

theorem getWord_safe (v : Machine.BitVector) (pos : Word) : Safe False (getWord v pos) := by
  unfold getWord
  refine Safe.chk_bind fun _ => Safe.bind (Safe.vat _ _) fun w _ => ?_
  refine Safe.bind (Safe.sr (.inl (mod64_lt _))) fun _ _ => ?_
  split
  · rename_i h
    refine Safe.bind (Safe.vat _ _) fun w _ => ?_
    exact Safe.bind (Safe.sl (.inl (sub_mod64_lt _ h.1))) fun _ _ => Safe.pure _
  · exact Safe.pure _

theorem predLoop_safe (neg : Bool) (bits : List Word) : ∀ (fuel : Nat) (block word : Word), block.toNat ≤ fuel →
    Safe False (predLoop neg bits fuel block word) := by
  intro fuel
  induction fuel with
  | zero =>
    intro block word h
    unfold predLoop
    cases msb word with
    | some r => exact Safe.pure _
    | none =>
      refine Safe.chk_bind fun hb => absurd (BitVec.eq_of_toNat_eq ?_) hb
      simpa using h
  | succ fuel ih =>
    intro block word h
    unfold predLoop
    cases msb word with
    | some r => exact Safe.pure _
    | none =>
      refine Safe.chk_bind fun hb => Safe.bind (Safe.vat _ _) fun w _ => ih _ _ ?_
      have : block.toNat ≠ 0 := fun e => hb (BitVec.eq_of_toNat_eq (by simpa using e))
      rw [BitVec.toNat_sub]
      have : (1 : Word).toNat = 1 := rfl
      omega

theorem predecessor_safe (neg : Bool) (v : Machine.BitVector) (pos : Word) : Safe False (predecessor neg v pos) := by
  unfold predecessor
  refine Safe.chk_bind fun _ => Safe.bind (Safe.vat _ _) fun w hw => ?_
  refine Safe.bind (Safe.sl (.inl (sub_mod64_lt' _))) fun _ _ => ?_
  refine Safe.bind (Safe.sr (.inl (sub_mod64_lt' _))) fun _ _ => ?_
  exact predLoop_safe _ _ _ _ _ (Nat.le_of_lt (vat_ok hw).1)

theorem succLoop_safe (neg : Bool) (bits : List Word) (hb : bits.length < 2^64) : ∀ (fuel : Nat) (block word : Word), block.toNat < bits.length → bits.length ≤ block.toNat + fuel →
    Safe False (succLoop neg bits fuel block word) := by
  intro fuel
  induction fuel with
  | zero => intro block word h h'; omega
  | succ fuel ih =>
    intro block word h h'
    unfold succLoop
    cases lsb word with
    | some r => exact Safe.pure _
    | none =>
      refine Safe.chk_bind fun hb' => Safe.bind (Safe.vat _ _) fun w hw => ?_
      have e : (block + 1).toNat = block.toNat + 1 := Machine.toNat_add_lt _ _ (by show block.toNat + 1 < 2^64; omega)
      refine ih _ _ (vat_ok hw).1 (by omega)

theorem successor_safe (neg : Bool) (v : Machine.BitVector) (hb : v.bits.length < 2^64) (pos : Word) : Safe False (successor neg v pos) := by
  unfold successor
  refine Safe.chk_bind fun _ => Safe.bind (Safe.vat _ _) fun w hw => ?_
  refine Safe.bind (Safe.sr (.inl (mod64_lt _))) fun _ _ => ?_
  refine Safe.bind (Safe.sl (.inl (mod64_lt _))) fun _ _ => ?_
  exact succLoop_safe _ _ hb _ _ _ (vat_ok hw).1 (by omega)

end BitVector

namespace Enum

theorem fillBuf_safe (v : Machine.BitVector) (e : Machine.Enum) : Safe False (fillBuf v e) :=
  Safe.bind (BitVector.getWord_safe _ _) fun _ _ => Safe.pure _

theorem next_safe (v : Machine.BitVector) (e : Machine.Enum) : Safe False (next v e) := by
  unfold next
  dsimp only
  split
  · exact Safe.bind (fillBuf_safe _ _) fun e _ => Safe.bind (Safe.sr (.inl (by decide : (1 : Nat) < 64))) fun _ _ => Safe.pure _
  · exact Safe.bind (Safe.pure _) fun e _ => Safe.bind (Safe.sr (.inl (by decide : (1 : Nat) < 64))) fun _ _ => Safe.pure _

theorem takeAvail_safe (e : Machine.Enum) (l : Word) : Safe (64 < l.toNat) (takeAvail e l) := by
  unfold takeAvail
  split
  · rename_i h
    have h1 : l.toNat < 64 ∨ 64 < l.toNat := by
      have : l.toNat ≠ 64 := fun e => h (BitVec.eq_of_toNat_eq e)
      omega
    exact Safe.bind (Safe.sl h1) fun _ _ => Safe.bind (Safe.sr h1) fun _ _ => Safe.pure _
  · exact Safe.pure _

theorem take_safe (v : Machine.BitVector) (e : Machine.Enum) (l : Word) : Safe (64 < l.toNat) (take v e l) := by
  unfold take
  dsimp only
  split
  · exact Safe.bind ((fillBuf_safe _ _).mono False.elim) fun e _ => takeAvail_safe e l
  · exact Safe.bind (Safe.pure _) fun e _ => takeAvail_safe e l

theorem fillBuf_ok {v : Machine.BitVector} {e e' : Machine.Enum} (h : fillBuf v e = .ok e') :
    e'.pos = e.pos ∧ e'.avail = 64 ∧ e.pos.toNat / 64 < v.bits.length := by
  unfold fillBuf at h
  obtain ⟨w, h1, h2⟩ := bind_ok h
  cases h2
  refine ⟨rfl, rfl, ?_⟩
  unfold BitVector.getWord at h1
  obtain ⟨_, _, h1⟩ := bind_ok h1
  obtain ⟨_, h2, _⟩ := bind_ok h1
  have := (vat_ok h2).1
  rwa [BitVec.toNat_udiv] at this

theorem skipZerosLoop_safe (v : Machine.BitVector) (hb : v.bits.length < 2^58) : ∀ (fuel : Nat) (e : Machine.Enum) (zs : Word),
    e.avail = 64 → e.pos.toNat / 64 < v.bits.length → v.bits.length ≤ e.pos.toNat / 64 + fuel → Safe False (skipZerosLoop v fuel e zs) := by
  intro fuel
  induction fuel with
  | zero => intro e zs _ h1 h2; omega
  | succ fuel ih =>
    intro e zs ha h1 h2
    unfold skipZerosLoop
    split
    · refine Safe.bind (fillBuf_safe _ _) fun e' he => ?_
      obtain ⟨h3, h4, h5⟩ := fillBuf_ok he
      have e1 : (e.pos + e.avail).toNat = e.pos.toNat + 64 := by
        rw [ha]
        exact Machine.toNat_add_lt _ _ (by show e.pos.toNat + 64 < 2^64; omega)
      dsimp only at h3 h5
      rw [e1] at h5
      refine ih _ _ h4 ?_ ?_
      · rw [h3, e1]; exact h5
      · rw [h3, e1]; omega
    · exact Safe.pure _

theorem skipZeros_safe (v : Machine.BitVector) (hb : v.bits.length < 2^58) (e : Machine.Enum) : Safe False (skipZeros v e) := by
  unfold skipZeros
  refine Safe.bind ?_ fun p _ => ?_
  · unfold skipZerosLoop
    split
    · refine Safe.bind (fillBuf_safe _ _) fun e' he => ?_
      obtain ⟨h3, h4, h5⟩ := fillBuf_ok he
      refine skipZerosLoop_safe v hb _ _ _ h4 ?_ (by omega)
      rw [h3]; exact h5
    · exact Safe.pure _
  · refine Safe.bind (lsbW_safe _) fun l hl => ?_
    exact Safe.bind (Safe.sr (.inl (lsbW_ok hl))) fun _ _ => Safe.bind (Safe.sr (.inl (by decide))) fun _ _ => Safe.pure _

theorem step_safe (v : Machine.BitVector) (hb : v.bits.length < 2^58) (e : Machine.Enum) (c : Machine.EnumCall) :
    Safe (∃ l, c = .take l ∧ 64 < l.toNat) (step v e c) := by
  cases c with
  | next => exact Safe.bind ((next_safe _ _).mono False.elim) fun _ _ => Safe.pure _
  | take l => exact Safe.bind ((take_safe v e l).mono fun h => ⟨l, rfl, h⟩) fun _ _ => Safe.pure _
  | skipZeros => exact Safe.bind ((skipZeros_safe v hb e).mono False.elim) fun _ _ => Safe.pure _

theorem run_safe (v : Machine.BitVector) (hb : v.bits.length < 2^58) : ∀ (ops : List Machine.EnumCall) (e : Machine.Enum),
    Safe (∃ l, .take l ∈ ops ∧ 64 < l.toNat) (run v e ops) := by
  intro ops
  induction ops with
  | nil => intro e; exact Safe.pure _
  | cons op ops ih =>
    intro e
    unfold run
    refine Safe.bind ((step_safe v hb e op).mono ?_) fun _ _ => Safe.bind ((ih _).mono ?_) fun _ _ => Safe.pure _
    · rintro ⟨l, rfl, h⟩
      exact ⟨l, List.mem_cons_self, h⟩
    · rintro ⟨l, h1, h2⟩
      exact ⟨l, List.mem_cons_of_mem _ h1, h2⟩

end Enum

namespace RSBitVector

theorem numOnes_safe {ar : Prop} {v : Machine.RSBitVector} (h : 2 ≤ v.pairs.length) : Safe ar (numOnes v) := by
  unfold numOnes
  rw [if_neg (by omega)]
  unfold raw
  rw [List.getElem?_eq_getElem (by omega)]
  trivial

theorem blockRank_safe {ar : Prop} (pairs : List Word) (b : Word) : Safe ar (blockRank pairs b) := Safe.vat _ _

theorem blockRank0_safe {ar : Prop} (pairs : List Word) (b : Word) : Safe ar (blockRank0 pairs b) :=
  Safe.bind (Safe.vat _ _) fun _ _ => Safe.pure _

theorem shift9 (off : Word) (h : off.toNat ≤ 7) : ((7 - off) * 9).toNat < 64 := by
  have e : ((7 : Word) - off).toNat = 7 - off.toNat := Machine.toNat_sub_le _ _ h
  have e2 : (7 - off.toNat) * 9 < 64 := by omega
  rw [BitVec.toNat_mul, e, show (9 : Word).toNat = 9 from rfl, Nat.mod_eq_of_lt (by omega)]
  exact e2

theorem off_le (s r : Word) : (Machine.RSBitVector.subBlockOffset s r).toNat ≤ 7 := by
  unfold Machine.RSBitVector.subBlockOffset
  rw [BitVec.toNat_and]
  exact Nat.and_le_right

theorem subBlockRank_safe {ar : Prop} (pairs : List Word) (sb : Word) : Safe ar (subBlockRank pairs sb) := by
  unfold subBlockRank
  refine Safe.bind (Safe.vat _ _) fun _ _ => Safe.bind (Safe.vat _ _) fun _ _ => ?_
  refine Safe.bind (Safe.sr (.inl (shift9 _ ?_))) fun _ _ => Safe.pure _
  rw [BitVec.toNat_umod]
  exact Nat.le_of_lt_succ (Nat.mod_lt _ (by decide))

theorem rank_safe {ar : Prop} {v : Machine.RSBitVector} (h : 2 ≤ v.pairs.length) (pos : Word) : Safe ar (rank v pos) := by
  unfold rank
  refine Safe.chk_bind fun _ => ?_
  split
  · exact numOnes_safe h
  · refine Safe.bind (subBlockRank_safe _ _) fun _ _ => ?_
    dsimp only
    split
    · rename_i h0
      exact Safe.bind (Safe.vat _ _) fun _ _ => Safe.bind (Safe.sl (.inl (sub_mod64_lt _ h0))) fun _ _ => Safe.pure _
    · exact Safe.pure _

theorem rank0_safe {ar : Prop} {v : Machine.RSBitVector} (h : 2 ≤ v.pairs.length) (pos : Word) : Safe ar (rank0 v pos) :=
  Safe.bind (rank_safe h pos) fun _ _ => Safe.pure _

theorem bsearch_safe {ar : Prop} (rk : Word → Run Word) (hr : ∀ b, Safe ar (rk b)) (n : Word) : ∀ (fuel : Nat) (a b : Word),
    (b - a).toNat ≤ fuel → Safe ar (bsearch rk n fuel a b) := by
  intro fuel
  induction fuel with
  | zero =>
    intro a b h
    unfold bsearch
    split
    · rename_i h1
      have h1 : (1 : Word).toNat < (b - a).toNat := h1
      have : (1 : Word).toNat = 1 := rfl
      omega
    · exact Safe.pure _
  | succ fuel ih =>
    intro a b h
    unfold bsearch
    split
    · rename_i h1
      have h1 : (1 : Word).toNat < (b - a).toNat := h1
      have e1 : (1 : Word).toNat = 1 := rfl
      have e2 : ((b - a) / 2).toNat = (b - a).toNat / 2 := by rw [BitVec.toNat_udiv]; rfl
      refine Safe.bind (hr _) fun x _ => ?_
      split
      · refine ih _ _ ?_
        have e3 : b - (a + (b - a) / 2) = (b - a) - (b - a) / 2 := by
          generalize (b - a) / 2 = d
          bv_omega
        rw [e3, Machine.toNat_sub_le _ _ (by omega)]
        omega
      · refine ih _ _ ?_
        have e3 : a + (b - a) / 2 - a = (b - a) / 2 := by
          rw [BitVec.add_comm, BitVec.add_sub_cancel]
        rw [e3]
        omega
    · exact Safe.pure _

theorem interval_safe {ar : Prop} (hints : List Word) (nb n : Word) : Safe ar (interval hints nb n) := by
  unfold interval
  split
  · refine Safe.bind ?_ fun _ _ => Safe.bind (Safe.vat _ _) fun _ _ => Safe.pure _
    unfold hintLow
    split
    · exact Safe.vat _ _
    · exact Safe.pure _
  · exact Safe.pure _

theorem select_safe {ar : Prop} {v : Machine.RSBitVector} (h : 2 ≤ v.pairs.length) (n : Word) : Safe ar (select v n) := by
  unfold select
  refine Safe.bind (numOnes_safe h) fun _ _ => Safe.chk_bind fun _ => ?_
  refine Safe.bind (interval_safe _ _ _) fun p _ => ?_
  refine Safe.bind (bsearch_safe _ (fun b => blockRank_safe _ b) _ _ _ _ (Nat.le_refl _)) fun _ _ => ?_
  refine Safe.chk_bind fun _ => Safe.bind (blockRank_safe _ _) fun _ _ => Safe.chk_bind fun _ => ?_
  refine Safe.bind (Safe.vat _ _) fun _ _ => ?_
  refine Safe.bind (Safe.sr (.inl (shift9 _ (off_le _ _)))) fun _ _ => Safe.chk_bind fun _ => ?_
  exact Safe.bind (Safe.vat _ _) fun _ _ => Safe.bind (selWord_safe _ _) fun _ _ => Safe.pure _

theorem select0_safe {ar : Prop} {v : Machine.RSBitVector} (h : 2 ≤ v.pairs.length) (n : Word) : Safe ar (select0 v n) := by
  unfold select0 numZeros
  refine Safe.bind (Safe.bind (numOnes_safe h) fun _ _ => Safe.pure _) fun _ _ => Safe.chk_bind fun _ => ?_
  refine Safe.bind (interval_safe _ _ _) fun p _ => ?_
  refine Safe.bind (bsearch_safe _ (fun b => blockRank0_safe _ b) _ _ _ _ (Nat.le_refl _)) fun _ _ => ?_
  refine Safe.chk_bind fun _ => Safe.bind (blockRank0_safe _ _) fun _ _ => Safe.chk_bind fun _ => ?_
  refine Safe.bind (Safe.vat _ _) fun _ _ => ?_
  refine Safe.bind (Safe.sr (.inl (shift9 _ (off_le _ _)))) fun _ _ => Safe.chk_bind fun _ => ?_
  exact Safe.bind (Safe.vat _ _) fun _ _ => Safe.bind (selWord_safe _ _) fun _ _ => Safe.pure _

end RSBitVector

namespace Darray

theorem selectLoop_safe {ar : Prop} (get : Word → Run Word) (N : Nat) (hN : N < 2^64) (hg : ∀ i, Safe ar (get i))
    (hr : ∀ i x, get i = .ok x → i.toNat < N) : ∀ (fuel : Nat) (word idx rem : Word), idx.toNat < N → N ≤ idx.toNat + 1 + fuel →
    Safe ar (selectLoop get fuel word idx rem) := by
  intro fuel
  induction fuel with
  | zero =>
    intro word idx rem h1 h2
    unfold selectLoop
    dsimp only
    split
    · exact Safe.bind (selWord_safe _ _) fun _ _ => Safe.pure _
    · refine Safe.bind (hg _) fun x hx => ?_
      have := hr _ _ hx
      by_cases hw : idx.toNat + 1 < 2^64
      · rw [Machine.toNat_add_lt idx 1 hw] at this
        have : (1 : Word).toNat = 1 := rfl
        omega
      · omega
  | succ fuel ih =>
    intro word idx rem h1 h2
    unfold selectLoop
    dsimp only
    split
    · exact Safe.bind (selWord_safe _ _) fun _ _ => Safe.pure _
    · refine Safe.bind (hg _) fun x hx => ?_
      have h3 := hr _ _ hx
      refine ih _ _ _ h3 ?_
      rw [Machine.toNat_add_lt idx 1 (by show idx.toNat + 1 < 2^64; omega)]
      have : (1 : Word).toNat = 1 := rfl
      omega

theorem selectFrom_safe {ar : Prop} (get : Word → Run Word) (N : Nat) (hN : N < 2^64) (hg : ∀ i, Safe ar (get i))
    (hr : ∀ i x, get i = .ok x → i.toNat < N) (start rem : Word) : Safe ar (selectFrom get N start rem) := by
  unfold selectFrom
  split
  · exact Safe.pure _
  · refine Safe.bind (hg _) fun w hw => Safe.bind (Safe.sl (.inl (mod64_lt _))) fun _ _ => ?_
    exact selectLoop_safe get N hN hg hr _ _ _ _ (hr _ _ hw) (by omega)

theorem getWord_safe {ar : Prop} (neg : Bool) (data : List Word) (i : Word) : Safe ar (getWord neg data i) :=
  Safe.bind (Safe.vat _ _) fun _ _ => Safe.pure _

theorem getWord_ok {neg : Bool} {data : List Word} {i x : Word} (h : getWord neg data i = .ok x) : i.toNat < data.length := by
  unfold getWord at h
  obtain ⟨_, h, _⟩ := bind_ok h
  exact (vat_ok h).1

theorem select_safe (neg : Bool) (d : Machine.Darray) (bv : Machine.BitVector) (hb : bv.bits.length < 2^64) (idx : Word) :
    Safe (BitVec.intMin 64 ∈ d.inv.block) (select neg d bv idx) := by
  unfold select
  refine Safe.chk_bind fun _ => Safe.bind (Safe.vat _ _) fun b hb' => ?_
  split
  · split
    · rename_i e
      have := (vat_ok hb').2
      rw [e] at this
      exact List.mem_of_getElem? this
    · exact Safe.vat _ _
  · refine Safe.bind (Safe.vat _ _) fun _ _ => ?_
    exact selectFrom_safe _ _ hb (fun i => getWord_safe _ _ i) (fun i x h => getWord_ok h) _ _

end Darray

theorem Darray64.select_safe (d : Machine.Darray64) (hb : d.bits.bits.length < 2^64) (idx : Word) : Safe False (Darray64.select d idx) := by
  unfold Darray64.select
  refine Safe.chk_bind fun _ => Safe.bind (Safe.vat _ _) fun _ _ => Safe.bind (Safe.vat _ _) fun _ _ => ?_
  exact Darray.selectFrom_safe _ _ hb (fun i => Safe.vat _ i) (fun i x h => (vat_ok h).1) _ _

namespace EliasFano

/-- the only sources of undefined arithmetic in an Elias–Fano sequence -/
def Bad (ef : Machine.EliasFano) : Prop :=
  64 ≤ ef.l.toNat ∨ BitVec.intMin 64 ∈ ef.d1.inv.block ∨ BitVec.intMin 64 ∈ ef.d0.inv.block

variable (ov : Word → Nat → Word) (ef : Machine.EliasFano)

theorem shiftL : ef.l.toNat < 64 ∨ Bad ef := by
  unfold Bad; omega

theorem lowMask_safe : Safe (Bad ef) (EFBuilder.lowMask ef.l) :=
  Safe.bind (Safe.sl (shiftL ef)) fun _ _ => Safe.pure _

theorem getLow_safe (k : Word) : Safe (Bad ef) (getLow ov ef k) :=
  (BitVector.getBits_safe ov ef.low _ _).mono fun h => .inl (by omega)

variable (hb : ef.high.bits.length < 2^64)
include hb

theorem d1_safe (n : Word) : Safe (Bad ef) (Darray.select false ef.d1 ef.high n) :=
  (Darray.select_safe _ _ _ hb _).mono fun h => .inr (.inl h)

theorem d0_safe (n : Word) : Safe (Bad ef) (Darray.select true ef.d0 ef.high n) :=
  (Darray.select_safe _ _ _ hb _).mono fun h => .inr (.inr h)

theorem select_safe (n : Word) : Safe (Bad ef) (select ov ef n) := by
  unfold select
  refine Safe.bind (d1_safe ef hb n) fun _ _ => Safe.bind (Safe.sl (shiftL ef)) fun _ _ => ?_
  exact Safe.bind (getLow_safe ov ef n) fun _ _ => Safe.pure _

omit hb in
theorem accessLoop_safe (lpos : Word) : ∀ (fuel : Nat) (h rank : Word), h.toNat ≤ fuel → Safe (Bad ef) (accessLoop ov ef lpos fuel h rank) := by
  intro fuel
  induction fuel with
  | zero =>
    intro h rank hf
    unfold accessLoop
    rw [if_neg]
    · exact Safe.pure _
    · intro h0
      have h0 : 0 < h.toNat := h0
      omega
  | succ fuel ih =>
    intro h rank hf
    unfold accessLoop
    split
    · rename_i h0
      have h0 : 0 < h.toNat := h0
      refine Safe.bind ((BitVector.access_safe _ _).mono False.elim) fun b _ => ?_
      split
      · refine Safe.bind (getLow_safe ov ef _) fun low _ => ?_
        split
        · exact Safe.pure _
        · split
          · exact Safe.pure _
          · refine ih _ _ ?_
            rw [Machine.toNat_sub_le _ _ (by show 1 ≤ h.toNat; omega)]
            have : (1 : Word).toNat = 1 := rfl
            omega
      · exact Safe.pure _
    · exact Safe.pure _

theorem access_safe (pos : Word) : Safe (Bad ef) (access ov ef pos) := by
  unfold access
  refine Safe.chk_bind fun _ => Safe.chk_bind fun _ => Safe.bind (Safe.sr (shiftL ef)) fun _ _ => ?_
  refine Safe.bind (d0_safe ef hb _) fun _ _ => Safe.bind (lowMask_safe ef) fun _ _ => ?_
  exact accessLoop_safe ov ef _ _ _ _ (Nat.le_refl _)

omit hb in
theorem rankLoop_safe (lpos : Word) : ∀ (fuel : Nat) (h rank : Word), h.toNat ≤ fuel → Safe (Bad ef) (rankLoop ov ef lpos fuel h rank) := by
  intro fuel
  induction fuel with
  | zero =>
    intro h rank hf
    unfold rankLoop
    rw [if_neg]
    · exact Safe.pure _
    · intro h0
      have h0 : 0 < h.toNat := h0
      omega
  | succ fuel ih =>
    intro h rank hf
    unfold rankLoop
    split
    · rename_i h0
      have h0 : 0 < h.toNat := h0
      refine Safe.bind ((BitVector.access_safe _ _).mono False.elim) fun b _ => ?_
      split
      · refine Safe.bind (getLow_safe ov ef _) fun low _ => ?_
        split
        · refine ih _ _ ?_
          rw [Machine.toNat_sub_le _ _ (by show 1 ≤ h.toNat; omega)]
          have : (1 : Word).toNat = 1 := rfl
          omega
        · exact Safe.pure _
      · exact Safe.pure _
    · exact Safe.pure _

theorem rank_safe (pos : Word) : Safe (Bad ef) (rank ov ef pos) := by
  unfold rank
  refine Safe.chk_bind fun _ => Safe.chk_bind fun _ => ?_
  split
  · exact Safe.pure _
  · refine Safe.bind (Safe.sr (shiftL ef)) fun _ _ => ?_
    refine Safe.bind (d0_safe ef hb _) fun _ _ => Safe.bind (lowMask_safe ef) fun _ _ => ?_
    exact rankLoop_safe ov ef _ _ _ _ (Nat.le_refl _)

theorem predecessor1_safe (pos : Word) : Safe (Bad ef) (predecessor1 ov ef pos) :=
  Safe.bind (rank_safe ov ef hb _) fun _ _ => select_safe ov ef hb _

theorem successor1_safe (pos : Word) : Safe (Bad ef) (successor1 ov ef pos) :=
  Safe.bind (rank_safe ov ef hb _) fun _ _ => select_safe ov ef hb _

theorem delta_safe (n : Word) : Safe (Bad ef) (delta ov ef n) := by
  unfold delta
  refine Safe.bind (d1_safe ef hb n) fun _ _ => Safe.bind (getLow_safe ov ef n) fun _ _ => ?_
  split
  · refine Safe.bind ((BitVector.predecessor_safe _ _ _).mono False.elim) fun _ _ => Safe.bind (Safe.sl (shiftL ef)) fun _ _ => ?_
    exact Safe.bind (getLow_safe ov ef _) fun _ _ => Safe.pure _
  · exact Safe.bind (Safe.sl (shiftL ef)) fun _ _ => Safe.pure _

theorem selectRange_safe (n : Word) : Safe (Bad ef) (selectRange ov ef n) := by
  unfold selectRange
  refine Safe.chk_bind fun _ => Safe.bind (d1_safe ef hb n) fun _ _ => Safe.bind (getLow_safe ov ef n) fun _ _ => ?_
  refine Safe.bind ((BitVector.successor_safe _ _ hb _).mono False.elim) fun _ _ => Safe.bind (getLow_safe ov ef _) fun _ _ => ?_
  exact Safe.bind (Safe.sl (shiftL ef)) fun _ _ => Safe.bind (Safe.sl (shiftL ef)) fun _ _ => Safe.pure _

end EliasFano

theorem EFCompressedList.get_safe (ov : Word → Nat → Word) (v : Machine.EFCompressedList) (hb : v.ef.high.bits.length < 2^64) (i : Word) :
    Safe True (EFCompressedList.get ov v i) := by
  unfold EFCompressedList.get
  refine Safe.bind ((EliasFano.selectRange_safe ov _ hb _).mono fun _ => trivial) fun p _ => ?_
  refine Safe.bind (Safe.sl (.inr trivial)) fun _ _ => Safe.bind ((BitVector.getBits_safe _ _ _ _).mono fun _ => trivial) fun _ _ => Safe.pure _

theorem GammaVector.get_safe (ov : Word → Nat → Word) (v : Machine.GammaVec) (hb : v.high.bits.bits.length < 2^64) (i : Word) :
    Safe False (GammaVector.get ov v i) := by
  unfold GammaVector.get GammaVector.retrieve
  refine Safe.bind (Darray64.select_safe _ hb _) fun _ _ => Safe.bind ?_ fun _ _ => Safe.pure _
  refine Safe.bind (BitVector.access_safe _ _) fun _ _ => Safe.chk_bind fun _ => Safe.bind (BitVector.getWord_safe _ _) fun _ _ => ?_
  refine Safe.bind (lsbW_safe _) fun l hl => Safe.bind (Safe.sl (.inl (lsbW_ok hl))) fun _ _ => ?_
  refine Safe.bind ((BitVector.getBits_safe _ _ _ _).mono fun h => ?_) fun _ _ => Safe.pure _
  have := lsbW_ok hl
  rw [BitVec.toNat_ofNat, Nat.mod_eq_of_lt (by omega)] at h
  omega

theorem GammaBitVector.get_safe (ov : Word → Nat → Word) (v : Machine.GammaVec) (hb : v.high.bits.bits.length < 2^64) (i : Word) :
    Safe True (GammaBitVector.get ov v i) := by
  unfold GammaBitVector.get GammaBitVector.retrieve
  refine Safe.bind ((Darray64.select_safe _ hb _).mono False.elim) fun _ _ => Safe.bind ?_ fun _ _ => Safe.pure _
  refine Safe.bind ((BitVector.access_safe _ _).mono False.elim) fun _ _ => Safe.chk_bind fun _ => Safe.bind ((BitVector.getWord_safe _ _).mono False.elim) fun _ _ => ?_
  refine Safe.bind (lsbW_safe _) fun l hl => ?_
  exact Safe.bind ((BitVector.getBits_safe _ _ _ _).mono fun _ => trivial) fun _ _ => Safe.bind (Safe.sl (.inr trivial)) fun _ _ => Safe.pure _

theorem NibbleVector.get_safe (v : Machine.NibbleVector) (pos : Word) : Safe False (NibbleVector.get v pos) :=
  Safe.chk_bind fun _ => Safe.bind (Safe.vat _ _) fun _ _ => Safe.pure _

theorem Vbyte.decodeLoop_safe (v : List (BitVec 8)) (hv : v.length < 2^64) : ∀ (fuel : Nat) (pos val : Word), v.length ≤ pos.toNat + fuel →
    Safe False (Vbyte.decodeLoop v fuel pos val) := by
  intro fuel
  induction fuel with
  | zero =>
    intro pos val h
    unfold Vbyte.decodeLoop
    refine Safe.bind (Safe.vat _ _) fun c hc => ?_
    have := (vat_ok hc).1
    omega
  | succ fuel ih =>
    intro pos val h
    unfold Vbyte.decodeLoop
    refine Safe.bind (Safe.vat _ _) fun c hc => ?_
    have := (vat_ok hc).1
    dsimp only
    split
    · refine ih _ _ ?_
      rw [Machine.toNat_add_lt pos 1 (by show pos.toNat + 1 < 2^64; omega)]
      have : (1 : Word).toNat = 1 := rfl
      omega
    · exact Safe.pure _

theorem Vbyte.decode_safe (v : List (BitVec 8)) (hv : v.length < 2^64) (offset : Word) : Safe False (Vbyte.decode v offset) :=
  Safe.bind (Vbyte.decodeLoop_safe v hv _ _ _ (by omega)) fun _ _ => Safe.pure _

end Checked
end Succinct
