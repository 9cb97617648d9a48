import Verif.Model.Checked
import Verif.Lemmas.Machine

/-! # The checked queries and the 64-bit model give the same values -/
namespace Succinct
namespace Checked
open Broadword
open Machine (vlen EnumCall EnumRet)

/-- unless the run meets undefined arithmetic, it has the value of the other model, or none if that has none -/
def Agree {α : Type} (y : Run α) (x : Option α) : Prop := y = .arith ∨ y.toOption = x

namespace Agree
variable {α β γ δ : Type}

theorem pure (a : α) : Agree (Pure.pure a) (some a) := .inr rfl

theorem pure' (a : α) : Agree (Pure.pure a) (Pure.pure a) := .inr rfl

theorem loop : Agree (.loop : Run α) none := .inr rfl

theorem abort : Agree (.abort : Run α) none := .inr rfl

theorem arith (x : Option α) : Agree (.arith : Run α) x := .inl rfl

theorem bind {y : Run α} {x : Option α} {f : α → Run β} {g : α → Option β} (h : Agree y x) (hf : ∀ a, Agree (f a) (g a)) :
    Agree (y >>= f) (x >>= g) := by
  rcases h with h | h
  · rw [h]; exact .inl rfl
  · subst h
    cases y with
    | ok a => exact hf a
    | abort => exact .inr rfl
    | mem => exact .inr rfl
    | arith => exact .inl rfl
    | loop => exact .inr rfl

theorem bind2 {y : Run (α × β)} {x : Option (α × β)} {f : α × β → Run γ} {g : α × β → Option γ} (h : Agree y x)
    (hf : ∀ a b, Agree (f (a, b)) (g (a, b))) : Agree (y >>= f) (x >>= g) := h.bind fun p => hf p.1 p.2

theorem bind3 {y : Run (α × β × γ)} {x : Option (α × β × γ)} {f : α × β × γ → Run δ} {g : α × β × γ → Option δ} (h : Agree y x)
    (hf : ∀ a b c, Agree (f (a, b, c)) (g (a, b, c))) : Agree (y >>= f) (x >>= g) := h.bind fun p => hf p.1 p.2.1 p.2.2

theorem ite {p : Prop} [Decidable p] {y y' : Run α} {x x' : Option α} (h : Agree y x) (h' : Agree y' x') :
    Agree (if p then y else y') (if p then x else x') := by
  split <;> assumption

theorem chk (p : Prop) [Decidable p] : Agree (Checked.chk p) (assertP p) := by
  unfold Checked.chk assertP
  split <;> exact .inr rfl

theorem raw (v : List α) (i : Nat) : Agree (Checked.raw v i) (rd v i) := by
  unfold Checked.raw rd
  cases v[i]? <;> exact .inr rfl

theorem rawW (v : List α) (i : Word) : Agree (Checked.raw v i.toNat) (Machine.at_ v i) := raw _ _

theorem vat (v : List α) (i : Word) : Agree (Checked.vat v i) (Machine.at_ v i) := by
  unfold Checked.vat Machine.at_
  by_cases h : i.toNat < v.length
  · unfold Checked.chk
    rw [if_pos h]
    exact raw v _
  · unfold Checked.chk rd
    rw [if_neg h, List.getElem?_eq_none (by omega)]
    exact .inr rfl

theorem sl (x : Word) (s : Nat) : Agree (Checked.sl x s) (shl x s) := by
  unfold Checked.sl shl
  split <;> exact .inr rfl

theorem sr (x : Word) (s : Nat) : Agree (Checked.sr x s) (shr x s) := by
  unfold Checked.sr shr
  split <;> exact .inr rfl

theorem selWord (x : Word) (k : Nat) : Agree (Checked.selWord x k) (selectInWord x k) := by
  unfold Checked.selWord selectInWord
  refine bind (chk _) fun _ => ?_
  cases selectFinish x k (selectPlace x k) <;> exact .inr rfl

theorem lsbW (x : Word) : Agree (Checked.lsbW x) (lsb1 x) := by
  unfold Checked.lsbW lsb1
  refine bind (chk _) fun _ => ?_
  cases lsb x <;> exact .inr rfl

theorem lsbW' (x : Word) : Agree (Checked.lsbW x) (lsb x) := by
  unfold Checked.lsbW Checked.chk
  by_cases h : x = 0
  · rw [if_neg (fun h' => h' h), h]
    exact .inr rfl
  · rw [if_pos h]
    cases h : lsb x
    · exact .inr rfl
    · exact .inr rfl

end Agree

/-- one step of comparing two transcriptions of the same function -/
syntax "agree1" : tactic
macro_rules | `(tactic| agree1) => `(tactic| dsimp only)
macro_rules | `(tactic| agree1) => `(tactic| with_reducible refine Agree.ite ?_ ?_)
macro_rules | `(tactic| agree1) => `(tactic| with_reducible refine Agree.bind ?_ fun _ => ?_)
macro_rules | `(tactic| agree1) => `(tactic| with_reducible refine Agree.bind2 ?_ fun _ _ => ?_)
macro_rules | `(tactic| agree1) => `(tactic| with_reducible refine Agree.bind3 ?_ fun _ _ _ => ?_)
macro_rules | `(tactic| agree1) => `(tactic| with_reducible apply_assumption)
macro_rules | `(tactic| agree1) => `(tactic| with_reducible first
  | exact Agree.pure _ | exact Agree.pure' _ | exact Agree.loop | exact Agree.abort | exact Agree.arith _
  | exact Agree.chk _ | exact Agree.vat _ _ | exact Agree.raw _ _ | exact Agree.rawW _ _ | exact Agree.sl _ _ | exact Agree.sr _ _
  | exact Agree.selWord _ _ | exact Agree.lsbW _ | exact Agree.lsbW' _)

/-- compares two transcriptions statement by statement -/
macro "agree" : tactic => `(tactic| repeat' agree1)

namespace BitVector

theorem access_agree (v : Machine.BitVector) (pos : Word) : Agree (access v pos) (v.access pos) := by
  unfold access Machine.BitVector.access
  agree

theorem getBits_agree (ov : Word → Nat → Word) (v : Machine.BitVector) (pos len : Word) : Agree (getBits ov v pos len) (v.getBits ov pos len) := by
  unfold getBits Machine.BitVector.getBits
  agree

theorem getWord_agree (v : Machine.BitVector) (pos : Word) : Agree (getWord v pos) (v.getWord pos) := by
  unfold getWord Machine.BitVector.getWord
  agree

theorem predLoop_agree (neg : Bool) (bits : List Word) : ∀ (fuel : Nat) (block word : Word),
    Agree (predLoop neg bits fuel block word) (Machine.BitVector.predLoop neg bits fuel block word) := by
  intro fuel
  induction fuel with
  | zero =>
    intro block word
    unfold predLoop Machine.BitVector.predLoop
    cases msb word <;> agree
  | succ fuel ih =>
    intro block word
    unfold predLoop Machine.BitVector.predLoop
    cases msb word <;> agree

theorem predecessor_agree (neg : Bool) (v : Machine.BitVector) (pos : Word) : Agree (predecessor neg v pos) (v.predecessor neg pos) := by
  unfold predecessor Machine.BitVector.predecessor
  agree
  exact predLoop_agree ..

theorem succLoop_agree (neg : Bool) (bits : List Word) : ∀ (fuel : Nat) (block word : Word),
    Agree (succLoop neg bits fuel block word) (Machine.BitVector.succLoop neg bits fuel block word) := by
  intro fuel
  induction fuel with
  | zero =>
    intro block word
    unfold succLoop Machine.BitVector.succLoop
    cases lsb word <;> agree
  | succ fuel ih =>
    intro block word
    unfold succLoop Machine.BitVector.succLoop
    cases lsb word <;> agree

theorem successor_agree (neg : Bool) (v : Machine.BitVector) (pos : Word) : Agree (successor neg v pos) (v.successor neg pos) := by
  unfold successor Machine.BitVector.successor
  agree
  exact succLoop_agree ..

end BitVector

macro_rules | `(tactic| agree1) => `(tactic| with_reducible first
  | exact BitVector.access_agree _ _ | exact BitVector.getBits_agree _ _ _ _
  | exact BitVector.getWord_agree _ _ | exact BitVector.predecessor_agree _ _ _ | exact BitVector.successor_agree _ _ _)

namespace Enum

theorem fillBuf_agree (v : Machine.BitVector) (e : Machine.Enum) : Agree (fillBuf v e) (Machine.Enum.fillBuf v e) := by
  unfold fillBuf Machine.Enum.fillBuf
  agree

theorem next_agree (v : Machine.BitVector) (e : Machine.Enum) : Agree (next v e) (Machine.Enum.next v e) := by
  have := fillBuf_agree
  unfold next Machine.Enum.next
  agree

theorem takeAvail_agree (e : Machine.Enum) (l : Word) : Agree (takeAvail e l) (Machine.Enum.takeAvail e l) := by
  unfold takeAvail Machine.Enum.takeAvail
  agree

theorem take_agree (v : Machine.BitVector) (e : Machine.Enum) (l : Word) : Agree (take v e l) (Machine.Enum.take v e l) := by
  have := fillBuf_agree
  have := takeAvail_agree
  unfold take Machine.Enum.take
  agree

theorem skipZerosLoop_agree (v : Machine.BitVector) : ∀ (fuel : Nat) (e : Machine.Enum) (zs : Word),
    Agree (skipZerosLoop v fuel e zs) (Machine.Enum.skipZerosLoop v fuel e zs) := by
  have := fillBuf_agree
  intro fuel
  induction fuel with
  | zero =>
    intro e zs
    unfold skipZerosLoop Machine.Enum.skipZerosLoop
    agree
  | succ fuel ih =>
    intro e zs
    unfold skipZerosLoop Machine.Enum.skipZerosLoop
    agree

theorem skipZeros_agree (v : Machine.BitVector) (e : Machine.Enum) : Agree (skipZeros v e) (Machine.Enum.skipZeros v e) := by
  have := skipZerosLoop_agree
  unfold skipZeros Machine.Enum.skipZeros
  agree

theorem step_agree (v : Machine.BitVector) (e : Machine.Enum) (c : EnumCall) : Agree (step v e c) (Machine.Enum.step v e c) := by
  have := next_agree
  have := take_agree
  have := skipZeros_agree
  unfold step Machine.Enum.step
  cases c <;> agree

theorem run_agree (v : Machine.BitVector) : ∀ (cs : List EnumCall) (e : Machine.Enum), Agree (run v e cs) (Machine.Enum.run v e cs) := by
  have := step_agree
  intro cs
  induction cs with
  | nil => intro e; unfold run Machine.Enum.run; agree
  | cons c cs ih => intro e; unfold run Machine.Enum.run; agree

end Enum

namespace UEnum

theorem new_agree (bits : List Word) (pos : Word) : Agree (new bits pos) (Machine.UEnum.new bits pos) := by
  unfold new Machine.UEnum.new
  agree

theorem nextLoop_agree (bits : List Word) : ∀ (fuel : Nat) (p b : Word), Agree (nextLoop bits fuel p b) (Machine.UEnum.nextLoop bits fuel p b) := by
  intro fuel
  induction fuel with
  | zero =>
    intro p b
    unfold nextLoop Machine.UEnum.nextLoop
    cases lsb b <;> agree
  | succ fuel ih =>
    intro p b
    unfold nextLoop Machine.UEnum.nextLoop
    cases lsb b <;> agree

theorem next_agree (bits : List Word) (e : Machine.UEnum) : Agree (next bits e) (Machine.UEnum.next bits e) := by
  have := nextLoop_agree
  unfold next Machine.UEnum.next
  agree

end UEnum

namespace RSBitVector

theorem blockRank_agree (pairs : List Word) (block : Word) : Agree (blockRank pairs block) (Machine.RSBitVector.blockRank pairs block) := by
  unfold blockRank Machine.RSBitVector.blockRank
  agree

theorem blockRank0_agree (pairs : List Word) (block : Word) : Agree (blockRank0 pairs block) (Machine.RSBitVector.blockRank0 pairs block) := by
  unfold blockRank0 Machine.RSBitVector.blockRank0
  agree

theorem subBlockRanks_agree (pairs : List Word) (block : Word) : Agree (subBlockRanks pairs block) (Machine.RSBitVector.subBlockRanks pairs block) := by
  unfold subBlockRanks Machine.RSBitVector.subBlockRanks
  agree

theorem numOnes_agree (v : Machine.RSBitVector) : Agree (numOnes v) v.numOnes := by
  unfold numOnes Machine.RSBitVector.numOnes
  split
  · rw [assertP_none (by omega)]
    exact .inr rfl
  · rw [assertP_eq _ (by omega)]
    exact Agree.raw _ _

theorem numZeros_agree (v : Machine.RSBitVector) : Agree (numZeros v) v.numZeros := by
  have := numOnes_agree
  unfold numZeros Machine.RSBitVector.numZeros
  agree

theorem subBlockRank_agree (pairs : List Word) (block : Word) : Agree (subBlockRank pairs block) (Machine.RSBitVector.subBlockRank pairs block) := by
  unfold subBlockRank Machine.RSBitVector.subBlockRank
  refine Agree.bind (blockRank_agree _ _) fun _ => Agree.bind (subBlockRanks_agree _ _) fun _ => Agree.bind (Agree.sr _ _) fun _ => ?_
  exact Agree.pure' _

theorem rank_agree (v : Machine.RSBitVector) (pos : Word) : Agree (rank v pos) (v.rank pos) := by
  have := subBlockRank_agree
  have := numOnes_agree
  unfold rank Machine.RSBitVector.rank
  agree

theorem rank0_agree (v : Machine.RSBitVector) (pos : Word) : Agree (rank0 v pos) (v.rank0 pos) := by
  have := rank_agree
  unfold rank0 Machine.RSBitVector.rank0
  agree

theorem bsearch_agree {r : Word → Run Word} {r' : Word → Option Word} (hr : ∀ x, Agree (r x) (r' x)) (n : Word) : ∀ (fuel : Nat) (a b : Word),
    Agree (bsearch r n fuel a b) (Machine.RSBitVector.bsearch r' n fuel a b) := by
  intro fuel
  induction fuel with
  | zero =>
    intro a b
    unfold bsearch Machine.RSBitVector.bsearch
    agree
  | succ fuel ih =>
    intro a b
    unfold bsearch Machine.RSBitVector.bsearch
    agree

theorem hintLow_agree (hints : List Word) (chunk : Word) : Agree (hintLow hints chunk) (Machine.RSBitVector.hintLow hints chunk) := by
  unfold hintLow Machine.RSBitVector.hintLow
  agree

theorem interval_agree (hints : List Word) (nb n : Word) : Agree (interval hints nb n) (Machine.RSBitVector.interval hints nb n) := by
  have := hintLow_agree
  unfold interval Machine.RSBitVector.interval
  agree

theorem select_agree (v : Machine.RSBitVector) (n : Word) : Agree (select v n) (v.select n) := by
  unfold select Machine.RSBitVector.select
  refine Agree.bind (numOnes_agree _) fun _ => Agree.bind (Agree.chk _) fun _ => Agree.bind2 (interval_agree _ _ _) fun _ _ => ?_
  refine Agree.bind (bsearch_agree (blockRank_agree _) _ _ _ _) fun _ => Agree.bind (Agree.chk _) fun _ => ?_
  refine Agree.bind (blockRank_agree _ _) fun _ => Agree.bind (Agree.chk _) fun _ => Agree.bind (subBlockRanks_agree _ _) fun _ => ?_
  refine Agree.bind (Agree.sr _ _) fun _ => Agree.bind (Agree.chk _) fun _ => Agree.bind (Agree.vat _ _) fun _ => ?_
  exact Agree.bind (Agree.selWord _ _) fun _ => Agree.pure' _

theorem select0_agree (v : Machine.RSBitVector) (n : Word) : Agree (select0 v n) (v.select0 n) := by
  unfold select0 Machine.RSBitVector.select0
  refine Agree.bind (numZeros_agree _) fun _ => Agree.bind (Agree.chk _) fun _ => Agree.bind2 (interval_agree _ _ _) fun _ _ => ?_
  refine Agree.bind (bsearch_agree (blockRank0_agree _) _ _ _ _) fun _ => Agree.bind (Agree.chk _) fun _ => ?_
  refine Agree.bind (blockRank0_agree _ _) fun _ => Agree.bind (Agree.chk _) fun _ => Agree.bind (subBlockRanks_agree _ _) fun _ => ?_
  refine Agree.bind (Agree.sr _ _) fun _ => Agree.bind (Agree.chk _) fun _ => Agree.bind (Agree.vat _ _) fun _ => ?_
  exact Agree.bind (Agree.selWord _ _) fun _ => Agree.pure' _

end RSBitVector

namespace Darray

theorem getWord_agree (neg : Bool) (data : List Word) (idx : Word) : Agree (getWord neg data idx) (Machine.Darray.getWord neg data idx) := by
  unfold getWord Machine.Darray.getWord
  agree

theorem selectLoop_agree {r : Word → Run Word} {r' : Word → Option Word} (hr : ∀ x, Agree (r x) (r' x)) : ∀ (fuel : Nat) (w idx rem : Word),
    Agree (selectLoop r fuel w idx rem) (Machine.Darray.selectLoop r' (fuel + 1) w idx rem) := by
  intro fuel
  induction fuel with
  | zero =>
    intro w idx rem
    unfold selectLoop Machine.Darray.selectLoop
    agree
    exact Agree.loop
  | succ fuel ih =>
    intro w idx rem
    unfold selectLoop Machine.Darray.selectLoop
    agree

theorem selectFrom_agree {r : Word → Run Word} {r' : Word → Option Word} (hr : ∀ x, Agree (r x) (r' x)) (fuel : Nat) (start rem : Word) :
    Agree (selectFrom r fuel start rem) (Machine.Darray.selectFrom r' (fuel + 1) start rem) := by
  have := selectLoop_agree hr
  unfold selectFrom Machine.Darray.selectFrom
  agree

theorem select_agree (neg : Bool) (d : Machine.Darray) (bv : Machine.BitVector) (idx : Word) : Agree (select neg d bv idx) (d.select neg bv idx) := by
  unfold select Machine.Darray.select
  agree
  · split <;> agree
  · exact selectFrom_agree (getWord_agree _ _) _ _ _

end Darray

theorem Darray64.select_agree (d : Machine.Darray64) (idx : Word) : Agree (Darray64.select d idx) (d.select idx) := by
  unfold Darray64.select Machine.Darray64.select
  agree
  exact Darray.selectFrom_agree (Agree.vat _) _ _ _

theorem EFBuilder.lowMask_agree (l : Word) : Agree (EFBuilder.lowMask l) (Machine.EFBuilder.lowMask l) := by
  unfold EFBuilder.lowMask Machine.EFBuilder.lowMask
  agree

macro_rules | `(tactic| agree1) => `(tactic| with_reducible first
  | exact Darray.select_agree _ _ _ _ | exact Darray64.select_agree _ _
  | exact EFBuilder.lowMask_agree _ | exact UEnum.new_agree _ _)

namespace EliasFano
variable (ov : Word → Nat → Word)

theorem getLow_agree (ef : Machine.EliasFano) (k : Word) : Agree (getLow ov ef k) (ef.getLow ov k) := BitVector.getBits_agree ..

theorem select_agree (ef : Machine.EliasFano) (n : Word) : Agree (select ov ef n) (ef.select ov n) := by
  have := getLow_agree ov
  unfold select Machine.EliasFano.select
  agree

theorem accessLoop_agree (ef : Machine.EliasFano) (lpos : Word) : ∀ (fuel : Nat) (h r : Word),
    Agree (accessLoop ov ef lpos fuel h r) (Machine.EliasFano.accessLoop ov ef lpos fuel h r) := by
  have := getLow_agree ov
  intro fuel
  induction fuel with
  | zero =>
    intro h r
    unfold accessLoop Machine.EliasFano.accessLoop
    agree
  | succ fuel ih =>
    intro h r
    unfold accessLoop Machine.EliasFano.accessLoop
    agree

theorem access_agree (ef : Machine.EliasFano) (pos : Word) : Agree (access ov ef pos) (ef.access ov pos) := by
  have := accessLoop_agree ov
  unfold access Machine.EliasFano.access
  agree

theorem rankLoop_agree (ef : Machine.EliasFano) (lpos : Word) : ∀ (fuel : Nat) (h r : Word),
    Agree (rankLoop ov ef lpos fuel h r) (Machine.EliasFano.rankLoop ov ef lpos fuel h r) := by
  have := getLow_agree ov
  intro fuel
  induction fuel with
  | zero =>
    intro h r
    unfold rankLoop Machine.EliasFano.rankLoop
    agree
  | succ fuel ih =>
    intro h r
    unfold rankLoop Machine.EliasFano.rankLoop
    agree

theorem rank_agree (ef : Machine.EliasFano) (pos : Word) : Agree (rank ov ef pos) (ef.rank ov pos) := by
  have := rankLoop_agree ov
  unfold rank Machine.EliasFano.rank
  agree

theorem predecessor1_agree (ef : Machine.EliasFano) (pos : Word) : Agree (predecessor1 ov ef pos) (ef.predecessor1 ov pos) := by
  have := rank_agree ov
  have := select_agree ov
  unfold predecessor1 Machine.EliasFano.predecessor1
  agree

theorem successor1_agree (ef : Machine.EliasFano) (pos : Word) : Agree (successor1 ov ef pos) (ef.successor1 ov pos) := by
  have := rank_agree ov
  have := select_agree ov
  unfold successor1 Machine.EliasFano.successor1
  agree

theorem delta_agree (ef : Machine.EliasFano) (n : Word) : Agree (delta ov ef n) (ef.delta ov n) := by
  have := getLow_agree ov
  unfold delta Machine.EliasFano.delta
  agree

theorem selectRange_agree (ef : Machine.EliasFano) (n : Word) : Agree (selectRange ov ef n) (ef.selectRange ov n) := by
  have := getLow_agree ov
  unfold selectRange Machine.EliasFano.selectRange
  agree

theorem SelEnum.new_agree (ef : Machine.EliasFano) (i : Word) : Agree (SelEnum.new ef i) (Machine.EliasFano.SelEnum.new ef i) := by
  unfold SelEnum.new Machine.EliasFano.SelEnum.new
  agree

end EliasFano

theorem EFCompressedList.get_agree (ov : Word → Nat → Word) (v : Machine.EFCompressedList) (i : Word) :
    Agree (EFCompressedList.get ov v i) (v.get ov i) := by
  have := EliasFano.selectRange_agree ov
  unfold EFCompressedList.get Machine.EFCompressedList.get
  agree

theorem GammaVector.get_agree (ov : Word → Nat → Word) (v : Machine.GammaVec) (i : Word) :
    Agree (GammaVector.get ov v i) (Machine.GammaVector.get ov v i) := by
  unfold GammaVector.get Machine.GammaVector.get GammaVector.retrieve Machine.GammaVector.retrieve
  agree

theorem GammaVector.enumNew_agree (v : Machine.GammaVec) (i : Word) :
    Agree (GammaVector.enumNew v i) (Machine.GammaVector.enumNew v i) := by
  unfold GammaVector.enumNew Machine.GammaVector.enumNew
  agree

theorem GammaBitVector.get_agree (ov : Word → Nat → Word) (v : Machine.GammaVec) (i : Word) :
    Agree (GammaBitVector.get ov v i) (Machine.GammaBitVector.get ov v i) := by
  unfold GammaBitVector.get Machine.GammaBitVector.get GammaBitVector.retrieve Machine.GammaBitVector.retrieve
  agree

theorem GammaBitVector.enumNew_agree (v : Machine.GammaVec) (i : Word) :
    Agree (GammaBitVector.enumNew v i) (Machine.GammaBitVector.enumNew v i) := by
  unfold GammaBitVector.enumNew Machine.GammaBitVector.enumNew
  agree

theorem NibbleVector.get_agree (v : Machine.NibbleVector) (pos : Word) : Agree (NibbleVector.get v pos) (v.get pos) := by
  unfold NibbleVector.get Machine.NibbleVector.get
  agree

namespace Vbyte

theorem decodeLoop_agree (v : List (BitVec 8)) (hv : v.length < 2^64) : ∀ (fuel : Nat) (pos val : Word), v.length ≤ pos.toNat + fuel →
    Agree (decodeLoop v fuel pos val) (Machine.Vbyte.decodeLoop v fuel pos val) := by
  intro fuel
  induction fuel with
  | zero =>
    intro pos val h
    unfold decodeLoop Machine.Vbyte.decodeLoop vat chk
    rw [if_neg (by omega)]
    exact .inr rfl
  | succ fuel ih =>
    intro pos val h
    unfold decodeLoop Machine.Vbyte.decodeLoop
    by_cases hp : pos.toNat < v.length
    · have := ih (pos + 1)
      rw [Machine.toNat_add_lt pos 1 (by show pos.toNat + 1 < 2^64; omega), show (1 : Word).toNat = 1 from rfl] at this
      have h2 := fun val => this val (by omega)
      clear this ih
      agree
    · unfold vat chk
      rw [if_neg hp, Machine.at_, Machine.rd_none (by omega)]
      exact .inr rfl

theorem decode_agree (v : List (BitVec 8)) (hv : v.length < 2^64) (pos : Word) : Agree (decode v pos) (Machine.Vbyte.decode v pos) := by
  unfold decode Machine.Vbyte.decode
  exact Agree.bind2 (decodeLoop_agree v hv _ _ _ (by omega)) fun _ _ => Agree.pure' _

end Vbyte

end Checked
end Succinct
