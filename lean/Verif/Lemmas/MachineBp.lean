import Verif.Model.MachineBp
import Verif.Lemmas.MachineRS
import Verif.Lemmas.MachineDarray
import Verif.Lemmas.BpRmqTree

/-! # `bp_vector` in 64-bit arithmetic follows the model

Every lemma says: where the model on numbers answers, the transcription on 64-bit words gives the same answer. -/
namespace Succinct
namespace Machine
open Broadword
open Succinct.RSBitVector (bind_pure_some nblocks)

/-- linear arithmetic on words that come from numbers -/
macro "wn" : tactic => `(tactic| (simp only [bitvec_to_nat, Nat.reducePow, Nat.reduceMod, ge_iff_le, gt_iff_lt, ne_eq]; omega))

theorem and1 (w : Word) : w &&& 1 = w % 2 := by
  apply BitVec.eq_of_toNat_eq
  rw [BitVec.toNat_and, BitVec.toNat_umod]
  exact Nat.and_one_is_mod _

theorem s32_of (w : Word) (x : Int) (h : (w.toNat : Int) % 2^32 = x % 2^32) : s32 w = toI32 x := by
  unfold s32 toI32
  rw [BitVec.toInt_eq_toNat_bmod, BitVec.toNat_setWidth]
  have : (((w.toNat % 2^32 : Nat) : Int)) = x % (2^32 : Nat) := by omega
  rw [this]
  exact Int.emod_bmod ..

theorem s32_W (n : Nat) : s32 (W n) = toI32 n := by
  apply s32_of; simp only [bitvec_to_nat, Nat.reducePow]; omega

theorem assert_of {p : Prop} [Decidable p] {u : Unit} (h : assertP p = some u) : p := by
  unfold assertP at h
  by_cases hp : p
  · exact hp
  · rw [if_neg hp] at h; exact absurd h (by simp)

theorem at_W {α : Type} {v : List α} {i : Nat} {x : α} (hi : i < 2^64) (h : rd v i = some x) : at_ v (W i) = some x := by
  unfold at_; rw [W_toNat _ hi]; exact h

theorem subU_of {a b r : Nat} (h : subU a b = some r) : b ≤ a ∧ r = a - b := by
  unfold subU at h
  split at h
  · rename_i hh; simp only [Option.some.injEq] at h; exact ⟨hh, h.symm⟩
  · exact absurd h (by simp)

namespace Bp
open Succinct.Bp

theorem byteAt_eq (word : Word) (n : Nat) (h : n < 64) : byteAt word (W n) = some (byteOf word n) := by
  unfold byteAt byteOf
  rw [W_toNat _ (by omega), shr_eq _ _ h, bind_pure_some]; rfl

/-- the end of `find_close_in_word` in the model -/
def closeRes (word cum : Word) : Option Nat → Option (Option Nat)
  | none => pure none
  | some shift => do
    let bitPos ← (fwdRow (byteOf word shift)).pos[byteOf cum shift]?
    assertP (bitPos > 0)
    pure (some (shift + bitPos - 1))

theorem findCloseInWord_unfold (word bc : Word) (e : Int) : Succinct.Bp.findCloseInWord word bc e =
    (assertP (e > 0 ∧ e ≤ 64) >>= fun _ => closeRes word (cumExcClose bc e) (lsb (leqStep8 (cumExcClose bc e) (minExcStep8 word)))) := by
  unfold Succinct.Bp.findCloseInWord
  dsimp only
  refine congrArg _ (funext fun _ => ?_)
  generalize lsb (leqStep8 (cumExcClose bc e) (minExcStep8 word)) = o
  cases o <;> rfl

theorem closeRes_sim {word cum : Word} {o : Option Nat} {r : Option Nat} (ho : ∀ n, o = some n → n < 64)
    (h : closeRes word cum o = some r) : closeResult word cum o = some (r.map W) := by
  cases o with
  | none =>
    simp only [closeRes, closeResult, pure, Option.some.injEq] at h ⊢
    rw [← h]; rfl
  | some n =>
    have hn := ho n rfl
    simp only [closeRes, closeResult, Option.bind_eq_bind, Option.bind_eq_some_iff, byteAt_eq _ _ hn] at h ⊢
    obtain ⟨b, hb, _, hp, h⟩ := h
    simp only [pure, Option.some.injEq] at h
    rw [← h]
    have hb0 := assert_of hp
    refine ⟨_, rfl, _, rfl, b, hb, (), hp, ?_⟩
    simp only [pure, Option.map_some, Option.some.injEq]
    rw [W_sub _ _ (by omega), W_add]; rfl

theorem findCloseInWord_sim {word bc : Word} {e : Int} {r : Option Nat} (h : Succinct.Bp.findCloseInWord word bc e = some r) :
    findCloseInWord word bc e = some (r.map W) := by
  rw [findCloseInWord_unfold] at h
  unfold findCloseInWord
  have hn : ∀ n, lsb (leqStep8 (cumExcClose bc e) (minExcStep8 word)) = some n → n < 64 := fun n hn => ((lsb_some _ _).1 hn).1
  dsimp only
  generalize lsb (leqStep8 (cumExcClose bc e) (minExcStep8 word)) = o at h hn ⊢
  simp only [Option.bind_eq_bind, Option.bind_eq_some_iff] at h
  obtain ⟨_, ha, h⟩ := h
  rw [ha, bind_pure_some]
  exact closeRes_sim hn h

/-- the end of `find_open_in_word` in the model -/
def openRes (word cum : Word) : Option Nat → Option (Option Nat)
  | none => pure none
  | some shift => do
    let s ← subU 56 shift
    let bitPos ← (bwdRow (byteOf word s)).pos[byteOf cum shift]?
    assertP (bitPos > 0)
    let r ← subU 64 (shift + bitPos)
    pure (some r)

theorem findOpenInWord_unfold (word bc : Word) (e : Int) : Succinct.Bp.findOpenInWord word bc e =
    (assertP (e > 0 ∧ e ≤ 64) >>= fun _ => openRes word (cumExcOpen bc e) (lsb (leqStep8 (cumExcOpen bc e) (maxExcStep8 word)))) := by
  unfold Succinct.Bp.findOpenInWord
  dsimp only
  refine congrArg _ (funext fun _ => ?_)
  generalize lsb (leqStep8 (cumExcOpen bc e) (maxExcStep8 word)) = o
  cases o <;> rfl

theorem openRes_sim {word cum : Word} {o : Option Nat} {r : Option Nat} (ho : ∀ n, o = some n → n < 64)
    (h : openRes word cum o = some r) : openResult word cum o = some (r.map W) := by
  cases o with
  | none =>
    simp only [openRes, openResult, pure, Option.some.injEq] at h ⊢
    rw [← h]; rfl
  | some n =>
    have hn := ho n rfl
    simp only [openRes, Option.bind_eq_bind, Option.bind_eq_some_iff] at h
    obtain ⟨s, hs, b, hb, _, hp, q, hq, h⟩ := h
    obtain ⟨s1, s2⟩ := subU_of hs
    obtain ⟨q1, q2⟩ := subU_of hq
    simp only [pure, Option.some.injEq] at h
    have e : 64 - W n - 8 = W s := by rw [s2]; wn
    simp only [openResult, Option.bind_eq_bind, Option.bind_eq_some_iff, e, byteAt_eq _ _ hn, byteAt_eq _ _ (show s < 64 by omega)]
    rw [← h]
    refine ⟨_, rfl, _, rfl, b, hb, (), hp, ?_⟩
    simp only [pure, Option.map_some, Option.some.injEq]
    rw [q2, W_sub _ _ q1, W_add]; rfl

theorem findOpenInWord_sim {word bc : Word} {e : Int} {r : Option Nat} (h : Succinct.Bp.findOpenInWord word bc e = some r) :
    findOpenInWord word bc e = some (r.map W) := by
  rw [findOpenInWord_unfold] at h
  unfold findOpenInWord
  have hn : ∀ n, lsb (leqStep8 (cumExcOpen bc e) (maxExcStep8 word)) = some n → n < 64 := fun n hn => ((lsb_some _ _).1 hn).1
  dsimp only
  generalize lsb (leqStep8 (cumExcOpen bc e) (maxExcStep8 word)) = o at h hn ⊢
  simp only [Option.bind_eq_bind, Option.bind_eq_some_iff] at h
  obtain ⟨_, ha, h⟩ := h
  rw [ha, bind_pure_some]
  exact openRes_sim hn h

/-- the variables in memory -/
def encRmq (s : Succinct.Bp.Rmq) : Rmq := ⟨s.exc, s.min, W s.idx⟩

theorem rmqByteLoop_idx (word : Word) : ∀ (is : List Nat) (s r : RmqByte), (∀ i ∈ is, i < 8) → s.byteIdx < 8 →
    rmqByteLoop word is s = some r → r.byteIdx < 8
  | [], s, r, _, hs, h => by
    simp only [rmqByteLoop, Option.some.injEq] at h; rw [← h]; exact hs
  | i :: is, s, r, hi, hs, h => by
    simp only [rmqByteLoop, Option.bind_eq_bind, Option.bind_eq_some_iff] at h
    obtain ⟨s', h1, h2⟩ := h
    refine rmqByteLoop_idx word is s' r (fun j hj => hi j (List.mem_cons_of_mem _ hj)) ?_ h2
    simp only [rmqByteStep, Option.bind_eq_bind, Option.bind_eq_some_iff, pure, Option.some.injEq] at h1
    obtain ⟨_, _, _, _, h1⟩ := h1
    rw [← h1]
    split
    · exact hi i List.mem_cons_self
    · exact hs

theorem rmqInWord_sim {word : Word} {st : Nat} {s r : Succinct.Bp.Rmq} (h : Succinct.Bp.rmqInWord word st s = some r) :
    rmqInWord word (W st) (encRmq s) = some (encRmq r) := by
  unfold Succinct.Bp.rmqInWord at h
  unfold rmqInWord
  simp only [Option.bind_eq_bind, Option.bind_eq_some_iff] at h
  obtain ⟨b, hb, h⟩ := h
  have hidx := rmqByteLoop_idx word _ _ _ (fun i hi => List.mem_range.1 hi) (by simp) hb
  rw [show (⟨(encRmq s).exc, (encRmq s).min, 0⟩ : RmqByte) = ⟨s.exc, s.min, 0⟩ from rfl, hb, bind_pure_some]
  simp only [pure, Option.some.injEq] at h
  rw [← h]
  by_cases hc : b.min < s.min
  · rw [if_pos hc, if_pos (show b.min < (encRmq s).min from hc)]
    have e : W b.byteIdx * 8 = W (b.byteIdx * 8) := (W_mul _ _).symm
    simp only [e, byteAt_eq _ _ (show b.byteIdx * 8 < 64 by omega), bind_pure_some, encRmq, pure, W_add]
  · rw [if_neg hc, if_neg (show ¬ b.min < (encRmq s).min from hc)]; rfl

end Bp
open Succinct.Machine.Bp

namespace BpVector

/-- the object in memory -/
def enc (v : Succinct.BpVector) : BpVector := ⟨RSBitVector.enc v.rs, W v.internalNodes, v.blockMin, v.superMin⟩

/-- a vector of at most `2^63` bits -/
structure Small (v : Succinct.BpVector) (l : List Bool) : Prop where
  rs : Succinct.RSBitVector.Inv v.rs l
  len : l.length ≤ 2^63
  internal : v.internalNodes ≤ 2^51
  blocks : v.blockMin.length ≤ 2^55
  super : v.superMin.length ≤ 2^52

variable {v : Succinct.BpVector} {l : List Bool}

theorem bits_len {rs : Succinct.RSBitVector} (h : Succinct.RSBitVector.Inv rs l) (hl : l.length ≤ 2^63) : rs.bv.bits.length ≤ 2^57 := by
  have := h.rep.len
  omega

theorem subBlockRank_sim {rs : Succinct.RSBitVector} (h : Succinct.RSBitVector.Inv rs l) (hl : l.length ≤ 2^63) {sb r : Nat}
    (hr : Succinct.RSBitVector.subBlockRank rs.pairs sb = some r) :
    RSBitVector.subBlockRank (RSBitVector.enc rs).pairs (W sb) = some (W r) ∧ sb / 8 ≤ 2^54 := by
  have hle : sb / 8 ≤ nblocks rs.bv.bits := by
    have hs := hr
    unfold Succinct.RSBitVector.subBlockRank at hs
    simp only [Option.bind_eq_bind, Option.bind_eq_some_iff] at hs
    obtain ⟨_, _, s, h2, _⟩ := hs
    unfold Succinct.RSBitVector.subBlockRanks at h2
    have := rd_lt h2
    rw [h.tab.len] at this
    omega
  have hnb := RSBitVector.nblocks_le h.rep hl
  rw [Succinct.RSBitVector.subBlockRank_eq h.tab _ hle] at hr
  rw [← Option.some.inj hr]
  exact ⟨RSBitVector.subBlockRank_eq h.tab hnb sb hle, by omega⟩

theorem blockExcess_sim {rs : Succinct.RSBitVector} (h : Succinct.RSBitVector.Inv rs l) (hl : l.length ≤ 2^63) {b : Nat} {r : Int}
    (hr : Succinct.BpVector.blockExcess rs b = some r) : blockExcess (RSBitVector.enc rs) (W b) = some r ∧ b ≤ 2^56 := by
  unfold Succinct.BpVector.blockExcess at hr
  unfold blockExcess
  simp only [Option.bind_eq_bind, Option.bind_eq_some_iff] at hr
  obtain ⟨x, h1, _, h2, h3⟩ := hr
  obtain ⟨k1, k2⟩ := subBlockRank_sim h hl h1
  have e1 : W b * 4 = W (b * 4) := (W_mul _ _).symm
  have e2 : s32 (2 * W x - W (b * 4) * 64) = toI32 (2 * (x : Int) - (b * 4 * 64 : Nat)) := by
    apply s32_of; simp only [bitvec_to_nat, Nat.reducePow, Nat.reduceMod]; omega
  simp only [e1, k1, bind_pure_some, e2, h2]
  exact ⟨h3, by omega⟩

theorem excess_sim (h : Small v l) {p : Nat} {r : Int} (hr : v.excess p = some r) : (enc v).excess (W p) = some r := by
  unfold Succinct.BpVector.excess at hr
  unfold excess
  simp only [Option.bind_eq_bind, Option.bind_eq_some_iff] at hr
  obtain ⟨x, h1, h3⟩ := hr
  have hp : p ≤ l.length := by
    rw [← h.rs.rep.size]
    unfold Succinct.RSBitVector.rank at h1
    simp only [Option.bind_eq_bind, Option.bind_eq_some_iff] at h1
    obtain ⟨_, h1, _⟩ := h1
    exact assert_of h1
  have hl := h.len
  have e := RSBitVector.rank_eq h.rs h.len (W p)
  rw [W_toNat _ (by omega), h1] at e
  have e2 : s32 (2 * W x - W p) = toI32 (2 * (x : Int) - p) := by
    apply s32_of; simp only [bitvec_to_nat, Nat.reducePow, Nat.reduceMod]; omega
  show (RSBitVector.rank (RSBitVector.enc v.rs) (W p) >>= _) = _
  rw [e, Option.map_some, bind_pure_some, e2]
  exact h3

theorem s32_sum (w : Word) : s32 (2 * w - 64) = toI32 (2 * (w.toNat : Int) - 64) := by
  apply s32_of; simp only [bitvec_to_nat, Nat.reducePow, Nat.reduceMod]; omega

theorem closeWord_sim {word bc : Word} {e : Int} {r : Option Nat} (h : Succinct.BpVector.closeWord word bc e = some r) :
    closeWord word bc e = some (r.map W) := by
  unfold Succinct.BpVector.closeWord at h
  unfold closeWord
  split at h
  · rw [if_pos (by assumption)]; exact findCloseInWord_sim h
  · rw [if_neg (by assumption)]; rw [← Option.some.inj h]; rfl

theorem openWord_sim {word bc : Word} {e : Int} {r : Option Nat} (h : Succinct.BpVector.openWord word bc e = some r) :
    openWord word bc e = some (r.map W) := by
  unfold Succinct.BpVector.openWord at h
  unfold openWord
  split at h
  · rw [if_pos (by assumption)]; exact findOpenInWord_sim h
  · rw [if_neg (by assumption)]; rw [← Option.some.inj h]; rfl

theorem closeLoop_sim {bits : List Word} (hb : bits.length ≤ 2^57) {bo : Nat} :
    ∀ (k off fuel : Nat) (e : Int) (r : Option Nat), k + off = 4 → k ≤ fuel →
      Succinct.BpVector.closeLoop bits k (bo + off) e = some r →
      closeLoop bits (W bo) fuel (W off) e = some (r.map W)
  | 0, off, fuel, e, r, h1, _, h => by
    simp only [Succinct.BpVector.closeLoop, Option.some.injEq] at h
    unfold closeLoop
    rw [if_neg (by wn), ← h]; rfl
  | k+1, off, 0, e, r, h1, hf, h => by omega
  | k+1, off, fuel+1, e, r, h1, hf, h => by
    simp only [Succinct.BpVector.closeLoop, Option.bind_eq_bind, Option.bind_eq_some_iff] at h
    obtain ⟨w, hw, _, ha, q, hq, h⟩ := h
    have hlt := rd_lt hw
    unfold closeLoop
    rw [if_pos (by wn)]
    have e1 : W bo + W off = W (bo + off) := (W_add _ _).symm
    simp only [e1, at_W (show bo + off < 2^64 by omega) hw, bind_pure_some, ha, closeWord_sim hq]
    cases q with
    | some ret =>
      simp only [pure, Option.some.injEq] at h
      rw [← h]
      show some (some _) = some (some _)
      rw [W_add ret, W_mul]; rfl
    | none =>
      simp only [Option.bind_eq_some_iff] at h
      obtain ⟨e', he, h⟩ := h
      simp only [Option.map_none, s32_sum, he, bind_pure_some]
      have := closeLoop_sim hb k (off+1) fuel e' r (by omega) (by omega) (by rw [← Nat.add_assoc]; exact h)
      rw [W_add] at this
      exact this

theorem findCloseInBlock_sim {bits : List Word} (hb : bits.length ≤ 2^57) {bo start : Nat} {e : Int} {r : Option Nat}
    (h : Succinct.BpVector.findCloseInBlock bits bo e start = some r) :
    findCloseInBlock bits (W bo) e (W start) = some (r.map W) := by
  unfold Succinct.BpVector.findCloseInBlock at h
  unfold findCloseInBlock
  simp only [Option.bind_eq_bind, Option.bind_eq_some_iff] at h
  obtain ⟨k, hk, h⟩ := h
  obtain ⟨k1, k2⟩ := subU_of hk
  have e0 : (4 - W start) * 64 = W (k * 64) := by rw [k2]; wn
  have e1 : s32 ((4 - W start) * 64) = toI32 (k * 64 : Nat) := by rw [e0, s32_W]
  rw [e1]
  split at h
  · rw [if_pos (by assumption)]
    simp only [pure, Option.some.injEq] at h
    rw [← h]; rfl
  · rw [if_neg (by assumption)]
    simp only [Option.bind_eq_some_iff] at h
    obtain ⟨_, ha, h⟩ := h
    rw [ha, bind_pure_some]
    exact closeLoop_sim hb k start 4 e r (by omega) (by omega) h

theorem openLoop_sim {bits : List Word} (hb : bits.length ≤ 2^57) {bo : Nat} :
    ∀ (k fuel : Nat) (e : Int) (r : Option Nat), k ≤ fuel → k ≤ 4 →
      Succinct.BpVector.openLoop bits bo k e = some r → openLoop bits (W bo) fuel (W k - 1) e = some (r.map W)
  | 0, fuel, e, r, _, _, h => by
    simp only [Succinct.BpVector.openLoop, Option.some.injEq] at h
    unfold openLoop
    rw [if_neg (by wn), ← h]; rfl
  | k+1, 0, e, r, hf, _, h => by omega
  | k+1, fuel+1, e, r, hf, h4, h => by
    simp only [Succinct.BpVector.openLoop, Option.bind_eq_bind, Option.bind_eq_some_iff] at h
    obtain ⟨_, ha, w, hw, q, hq, h⟩ := h
    have hlt := rd_lt hw
    have e0 : W (k + 1) - 1 = W k := by wn
    unfold openLoop
    rw [if_pos (by wn), e0]
    have e1 : W bo + W k = W (bo + k) := (W_add _ _).symm
    simp only [e1, at_W (show bo + k < 2^64 by omega) hw, bind_pure_some, ha, openWord_sim hq]
    cases q with
    | some ret =>
      simp only [pure, Option.some.injEq] at h
      rw [← h]
      show some (some _) = some (some _)
      rw [W_add ret, W_mul]; rfl
    | none =>
      simp only [Option.bind_eq_some_iff] at h
      obtain ⟨e', he, h⟩ := h
      simp only [Option.map_none, s32_sum, he, bind_pure_some]
      exact openLoop_sim hb k fuel e' r (by omega) (by omega) h

theorem findOpenInBlock_sim {bits : List Word} (hb : bits.length ≤ 2^57) {bo start : Nat} (hs : start ≤ 4) {e : Int} {r : Option Nat}
    (h : Succinct.BpVector.findOpenInBlock bits bo e start = some r) :
    findOpenInBlock bits (W bo) e (W start) = some (r.map W) := by
  unfold Succinct.BpVector.findOpenInBlock at h
  unfold findOpenInBlock
  have e0 : W start * 64 = W (start * 64) := by wn
  have e1 : s32 (W start * 64) = toI32 (start * 64 : Nat) := by rw [e0, s32_W]
  rw [e1]
  split at h
  · rw [if_pos (by assumption)]
    simp only [Option.some.injEq] at h
    rw [← h]; rfl
  · rw [if_neg (by assumption)]
    simp only [Option.bind_eq_bind, Option.bind_eq_some_iff] at h
    obtain ⟨_, ha, h⟩ := h
    rw [ha, bind_pure_some]
    exact openLoop_sim hb start 4 e r (by omega) (by omega) h

/-! ## the trees -/

theorem searchFwd_sim {mins : List Int} (hm : mins.length ≤ 2^55) {e x : Int} {stop : Nat} (hs : stop < 2^64) :
    ∀ (k block fuel : Nat) (r : Option Nat), k = stop - block → k ≤ fuel → block < 2^63 →
      Succinct.BpVector.searchFwd mins e x k block = some r → searchFwd mins e x (W stop) fuel (W block) = some (r.map W)
  | 0, block, fuel, r, h1, _, hb, h => by
    simp only [Succinct.BpVector.searchFwd, Option.some.injEq] at h
    unfold searchFwd
    rw [if_neg (by wn), ← h]; rfl
  | k+1, block, 0, r, h1, hf, _, h => by omega
  | k+1, block, fuel+1, r, h1, hf, hb, h => by
    simp only [Succinct.BpVector.searchFwd, Option.bind_eq_bind, Option.bind_eq_some_iff] at h
    obtain ⟨m, hm1, y, hy, h⟩ := h
    have hlt := rd_lt hm1
    unfold searchFwd
    rw [if_pos (by wn)]
    simp only [at_W (show block < 2^64 by omega) hm1, bind_pure_some, hy]
    split at h
    · rw [if_pos (by assumption)]
      simp only [pure, Option.some.injEq] at h
      rw [← h]; rfl
    · rw [if_neg (by assumption)]
      have := searchFwd_sim hm hs k (block+1) fuel r (by omega) (by omega) (by omega) h
      rw [W_add] at this
      exact this

theorem searchBwd_sim {mins : List Int} (hm : mins.length ≤ 2^55) {e x : Int} {s : Nat} (hs : s ≤ 2^52) :
    ∀ (k fuel : Nat) (r : Option Nat), k ≤ fuel → k ≤ 32 →
      Succinct.BpVector.searchBwd mins e x (s * 32) k = some r →
      searchBwd mins e x (W s) fuel (W (s * 32 + k) - 1) = some (r.map W)
  | 0, fuel, r, _, _, h => by
    simp only [Succinct.BpVector.searchBwd, Option.some.injEq] at h
    unfold searchBwd
    rw [if_neg (by wn), ← h]; rfl
  | k+1, 0, r, hf, _, h => by omega
  | k+1, fuel+1, r, hf, hk, h => by
    simp only [Succinct.BpVector.searchBwd, Option.bind_eq_bind, Option.bind_eq_some_iff] at h
    obtain ⟨m, hm1, y, hy, h⟩ := h
    have hlt := rd_lt hm1
    have e0 : W (s * 32 + (k + 1)) - 1 = W (s * 32 + k) := by wn
    unfold searchBwd
    rw [e0, if_pos (by wn)]
    simp only [at_W (show s * 32 + k < 2^64 by omega) hm1, bind_pure_some, hy]
    split at h
    · rw [if_pos (by assumption)]
      simp only [pure, Option.some.injEq] at h
      rw [← h]; rfl
    · rw [if_neg (by assumption)]
      exact searchBwd_sim hm hs k fuel r (by omega) (by omega) h

theorem minW_eq (a b : Nat) (ha : a < 2^64) (hb : b < 2^64) : minW (W a) (W b) = W (min a b) := by
  unfold minW
  by_cases h : b < a
  · rw [if_pos ((W_lt _ _ hb ha).2 h), Nat.min_eq_right (by omega)]
  · rw [if_neg (fun c => h ((W_lt _ _ hb ha).1 c)), Nat.min_eq_left (by omega)]

theorem searchBlock_sim (h : Small v l) {fwd : Bool} {block : Nat} (hb : block ≤ 2^57) {e : Int} {r : Option Nat}
    (hr : v.searchBlockInSuperblock fwd block e = some r) :
    (enc v).searchBlockInSuperblock fwd (W block) e = some (r.map W) := by
  unfold Succinct.BpVector.searchBlockInSuperblock at hr
  unfold searchBlockInSuperblock
  simp only [Option.bind_eq_bind, Option.bind_eq_some_iff] at hr
  obtain ⟨x, hx, hr⟩ := hr
  have hm := h.blocks
  have e1 : W block / 32 = W (block / 32) := by wn
  have e2 : W (block / 32) * 32 = W (block / 32 * 32) := (W_mul _ _).symm
  have e3 : (W (block / 32) + 1) * 32 = W ((block / 32 + 1) * 32) := by rw [W_mul, W_add]; rfl
  have e4 : vlen v.blockMin = W v.blockMin.length := rfl
  simp only [e1, e2, e3]
  show (blockExcess (RSBitVector.enc v.rs) _ >>= _) = _
  rw [(blockExcess_sim h.rs h.len hx).1, bind_pure_some]
  cases fwd with
  | true =>
    simp only [if_true] at hr
    show (if (true : Bool) = true then searchFwd v.blockMin e x (minW _ (vlen v.blockMin)) 32 _ else _) = _
    rw [if_pos rfl, e4, minW_eq _ _ (by omega) (by omega)]
    exact searchFwd_sim hm (by omega) _ _ _ _ rfl (by omega) (by omega) hr
  | false =>
    simp only [Bool.false_eq_true, if_false] at hr
    show (if (false : Bool) = true then _ else searchBwd v.blockMin e x _ 32 _) = _
    rw [if_neg (by decide)]
    have := searchBwd_sim hm (show block / 32 ≤ 2^52 by omega) _ 32 r (by omega) (by omega) hr
    have e5 : W (block / 32 * 32 + (block + 1 - block / 32 * 32)) - 1 = W block := by wn
    rw [e5] at this
    exact this

theorem inNodeRange_sim {node : Nat} {e : Int} {r : Bool} (hn : node < 2^64)
    (hr : v.inNodeRange node e = some r) : (enc v).inNodeRange (W node) e = some r ∧ node < v.superMin.length := by
  unfold Succinct.BpVector.inNodeRange at hr
  unfold inNodeRange
  simp only [Option.bind_eq_bind, Option.bind_eq_some_iff] at hr
  obtain ⟨m, hm, _, ha, hr⟩ := hr
  have e1 : s32 (enc v).rs.bv.size = toI32 v.rs.bv.size := s32_W _
  refine ⟨?_, rd_lt hm⟩
  show (at_ v.superMin _ >>= _) = _
  rw [at_W hn hm, bind_pure_some, e1, ha, bind_pure_some]
  exact hr

theorem otherNode_sim {fwd : Bool} {node r : Nat} (h : Succinct.BpVector.otherNode fwd node = some r) :
    otherNode fwd (W node) = W r ∧ r ≤ node + 1 := by
  unfold Succinct.BpVector.otherNode at h
  unfold otherNode
  cases fwd with
  | true => simp only [if_true, Option.some.injEq] at h ⊢; rw [← h, W_add]; exact ⟨rfl, Nat.le_refl _⟩
  | false =>
    simp only [Bool.false_eq_true, if_false] at h ⊢
    obtain ⟨h1, h2⟩ := subU_of h
    rw [h2, W_sub _ _ h1]; exact ⟨rfl, by omega⟩

theorem dir_and (fwd : Bool) (node : Nat) : (W node &&& 1 = dir fwd) ↔ node % 2 = (if fwd then 1 else 0) := by
  rw [and1]; unfold dir
  cases fwd
  · simp only [Bool.false_eq_true, if_false]; wn
  · simp only [if_true]; wn

theorem siblingHit_sim (h : Small v l) {fwd : Bool} {node : Nat} {e : Int} {r : Option Nat} (hn : node < 2^62)
    (hr : v.siblingHit fwd node e = some r) : (enc v).siblingHit fwd (W node) e = some (r.map W) ∧ ∀ n, r = some n → n < 2^62 := by
  have hsup := h.super
  unfold Succinct.BpVector.siblingHit at hr
  unfold siblingHit
  simp only [dir_and fwd node]
  by_cases hc : node % 2 = (if fwd then 1 else 0)
  · rw [if_pos hc] at hr ⊢
    rw [← Option.some.inj hr]; exact ⟨rfl, by simp⟩
  · rw [if_neg hc] at hr ⊢
    simp only [Option.bind_eq_bind, Option.bind_eq_some_iff] at hr
    obtain ⟨n, h1, b, h2, h3⟩ := hr
    obtain ⟨k1, k2⟩ := otherNode_sim h1
    obtain ⟨q1, q2⟩ := inNodeRange_sim (by omega) h2
    simp only [pure, Option.some.injEq] at h3
    simp only [k1, q1, bind_pure_some, ← h3]
    cases b
    · exact ⟨rfl, by simp⟩
    · exact ⟨rfl, by intro n' hn'; simp at hn'; omega⟩

theorem treeUp_sim (h : Small v l) {fwd : Bool} {e : Int} : ∀ (fuel node r : Nat), node < 2^62 →
    v.treeUp fwd e fuel node = some r → (enc v).treeUp fwd e fuel (W node) = some (W r) ∧ r < 2^62
  | 0, _, _, _, hr => by simp [Succinct.BpVector.treeUp] at hr
  | fuel+1, node, r, hn, hr => by
    simp only [Succinct.BpVector.treeUp, Option.bind_eq_bind, Option.bind_eq_some_iff] at hr
    obtain ⟨_, ha, q, hq, hr⟩ := hr
    obtain ⟨k1, k2⟩ := siblingHit_sim h hn hq
    unfold treeUp
    have ha' : assertP (W node ≠ 0) = some () := assert_yes (by have := assert_of ha; wn)
    rw [ha', bind_pure_some, k1, bind_pure_some]
    cases q with
    | some n =>
      simp only [pure, Option.some.injEq] at hr
      rw [← hr]; exact ⟨rfl, k2 n rfl⟩
    | none =>
      have e1 : W node / 2 = W (node / 2) := by wn
      simp only [Option.map_none, e1]
      exact treeUp_sim h fuel (node/2) r (by omega) hr

theorem dir_sub (fwd : Bool) : (1 : Word) - dir fwd = W (if fwd then 0 else 1) := by cases fwd <;> rfl

theorem treeDown_sim (h : Small v l) {fwd : Bool} {e : Int} : ∀ (fuel node r : Nat), node < 2^62 →
    v.treeDown fwd e fuel node = some r → (enc v).treeDown fwd e fuel (W node) = some (W r) ∧ r < 2^62 := by
  have hsup := h.super; have hint := h.internal
  intro fuel
  induction fuel with
  | zero =>
    intro node r hn hr
    unfold Succinct.BpVector.treeDown at hr
    unfold treeDown
    have hc : (W node < (enc v).internalNodes) ↔ node < v.internalNodes := W_lt _ _ (by omega) (by omega)
    simp only [hc]
    split at hr
    · simp at hr
    · rw [if_neg (by assumption)]; rw [← Option.some.inj hr]; exact ⟨rfl, hn⟩
  | succ fuel ih =>
    intro node r hn hr
    unfold Succinct.BpVector.treeDown at hr
    unfold treeDown
    have hc : (W node < (enc v).internalNodes) ↔ node < v.internalNodes := W_lt _ _ (by omega) (by omega)
    simp only [hc]
    split at hr
    · rename_i hlt
      rw [if_pos hlt]
      have e1 : W node * 2 + (1 - dir fwd) = W (node * 2 + (if fwd then 0 else 1)) := by rw [dir_sub, W_add, W_mul]; rfl
      have hd : (if fwd then 0 else 1) ≤ 1 := by cases fwd <;> simp
      generalize (if fwd then 0 else 1) = d at hr e1 hd
      simp only [Option.bind_eq_bind, Option.bind_eq_some_iff] at hr
      obtain ⟨b, h1, hr⟩ := hr
      obtain ⟨k1, k2⟩ := inNodeRange_sim (by omega) h1
      simp only [e1, k1, bind_pure_some]
      cases b with
      | true =>
        simp only [if_true] at hr ⊢
        exact ih _ r (by omega) hr
      | false =>
        simp only [Bool.false_eq_true, if_false, Option.bind_eq_some_iff] at hr ⊢
        obtain ⟨o, ho, b', hb', _, ha, hr⟩ := hr
        obtain ⟨o1, o2⟩ := otherNode_sim ho
        obtain ⟨q1, q2⟩ := inNodeRange_sim (by omega) hb'
        simp only [o1, q1, bind_pure_some, ha]
        exact ih _ r (by omega) hr
    · rw [if_neg (by assumption)]; rw [← Option.some.inj hr]; exact ⟨rfl, hn⟩

theorem searchMinTree_sim (h : Small v l) {fwd : Bool} {block : Nat} (hb : block ≤ 2^57) {e : Int} {r : Nat}
    (hr : v.searchMinTree fwd block e = some r) : (enc v).searchMinTree fwd (W block) e = some (W r) := by
  have hint := h.internal
  have hsup := h.super
  unfold Succinct.BpVector.searchMinTree at hr
  unfold searchMinTree
  simp only [Option.bind_eq_bind, Option.bind_eq_some_iff] at hr
  obtain ⟨q, hq, hr⟩ := hr
  rw [searchBlock_sim h hb hq, bind_pure_some]
  cases q with
  | some b =>
    simp only [pure, Option.some.injEq] at hr
    rw [← hr]; rfl
  | none =>
    simp only [Option.bind_eq_some_iff] at hr
    obtain ⟨top, h1, _, h2, leaf, h3, nx, h4, q2, h5, hr⟩ := hr
    have e1 : (enc v).internalNodes + W block / 32 = W (v.internalNodes + block / 32) := by
      show W v.internalNodes + _ = _
      wn
    obtain ⟨k1, k2⟩ := treeUp_sim h _ _ _ (by omega) h1
    obtain ⟨k3, k4⟩ := treeDown_sim h _ _ _ k2 h3
    obtain ⟨n1, n2⟩ := subU_of h4
    have e2 : (W (v.internalNodes + block / 32)).toNat = v.internalNodes + block / 32 := W_toNat _ (by omega)
    have e3 : (enc v).internalNodes.toNat = v.internalNodes := W_toNat _ (by omega)
    have a2 : assertP (W top ≠ 0) = some () := assert_yes (by have := assert_of h2; wn)
    have e4 : W leaf - (enc v).internalNodes = W nx := by rw [n2]; exact (W_sub _ _ n1).symm
    have e5 : W nx * 32 + (1 - dir fwd) * (32 - 1) = W (nx * 32 + (if fwd then 0 else 31)) := by
      rw [dir_sub, W_add, W_mul]; cases fwd <;> rfl
    have hnx : nx * 32 + (if fwd then 0 else 31) ≤ 2^57 := by
      have hx := h5
      unfold Succinct.BpVector.searchBlockInSuperblock at hx
      simp only [Option.bind_eq_bind, Option.bind_eq_some_iff] at hx
      obtain ⟨x, hx, _⟩ := hx
      have := (blockExcess_sim h.rs h.len hx).2
      cases fwd
      · simp only [Bool.false_eq_true, if_false] at this ⊢; omega
      · simp only [if_true] at this ⊢; omega
    simp only [Option.map_none, e1, e2, k1, bind_pure_some, a2, e3, k3, e4, e5, searchBlock_sim h hnx h5]
    rw [hr]; rfl

/-! ## `find_close` and `find_open` -/

theorem access_sim (h : Small v l) {pos : Nat} {b : Bool} (hr : v.rs.bv.access pos = some b) :
    BitVector.access (enc v).rs.bv (W pos) = some b ∧ pos < l.length := by
  have hs := h.rs.rep.size
  have hl := h.len
  have hp : pos < l.length := by
    unfold Succinct.BitVector.access at hr
    simp only [Option.bind_eq_bind, Option.bind_eq_some_iff] at hr
    obtain ⟨_, h1, _⟩ := hr
    have := assert_of h1
    omega
  refine ⟨?_, hp⟩
  have e := BitVector.access_eq v.rs.bv (BitVector.Fits.of_rep h.rs.rep h.len) (W pos)
  rw [W_toNat _ (by omega), hr] at e
  exact e

theorem negBool_W (n : Nat) (h : n < 64) : negBool (decide (W n ≠ 0)) = negBool (decide (n ≠ 0)) := by
  have : (W n ≠ 0) ↔ n ≠ 0 := by wn
  simp only [this]

theorem s32_local {x : Word} {lr sh : Nat} (h : subU x.toNat sh = some lr) (hs : sh < 64) :
    s32 (2 * (x - W sh) - (64 - W sh)) = toI32 (2 * (lr : Int) - (64 - sh : Nat)) := by
  obtain ⟨h1, h2⟩ := subU_of h
  have hx := x.isLt
  apply s32_of; simp only [bitvec_to_nat, Nat.reducePow, Nat.reduceMod]; omega

theorem s32_len (x : Word) (n : Nat) : s32 (2 * x - W n) = toI32 (2 * (x.toNat : Int) - n) := by
  apply s32_of; simp only [bitvec_to_nat, Nat.reducePow, Nat.reduceMod]; omega

theorem findClose_sim (ov : Word → Nat → Word) (h : Small v l) {pos r : Nat} (hr : v.findClose ov pos = some r) :
    (enc v).findClose ov (W pos) = some (W r) := by
  have hl := h.len
  have hbits := bits_len h.rs h.len
  unfold Succinct.BpVector.findClose at hr
  simp only [Option.bind_eq_bind, Option.bind_eq_some_iff] at hr
  obtain ⟨b, h1, _, h2, w, h3, q, h4, hr⟩ := hr
  obtain ⟨a1, a2⟩ := access_sim h h1
  have e1 : W pos + 1 = W (pos + 1) := (W_add _ _).symm
  have e2 : W (pos + 1) / 64 = W ((pos + 1) / 64) := by wn
  have e3 : W (pos + 1) % 64 = W ((pos + 1) % 64) := by wn
  have hsh : (pos + 1) % 64 < 64 := by omega
  have hwp : (pos + 1) / 64 < 2^57 + 1 := by omega
  generalize (pos + 1) % 64 = sh at *
  generalize (pos + 1) / 64 = wp at *
  have e4 : (W sh).toNat = sh := W_toNat _ (by omega)
  have e5 : ((64 : Word) - W sh).toNat = 64 - sh := by
    rw [show (64 : Word) = W 64 from rfl, ← W_sub _ _ (by omega), W_toNat _ (by omega)]
  unfold findClose
  rw [a1, bind_pure_some, h2, bind_pure_some]
  simp only [e1, e2, e3]
  rw [show (enc v).rs.bv.bits = v.rs.bv.bits from rfl, at_W (by omega) h3, bind_pure_some]
  simp only [e4, e5, negBool_W _ hsh]
  generalize (w >>> sh ||| negBool (decide (sh ≠ 0)) &&& shlOv ov (BitVec.allOnes 64) (64 - sh)) = padded at *
  generalize byteCounts padded = bc at *
  rw [findCloseInWord_sim h4, bind_pure_some]
  cases q with
  | some ret =>
    simp only [pure, Option.some.injEq] at hr
    rw [← hr]
    simp only [Option.map_some, pure]
    rw [W_add ret]
  | none =>
    simp only [Option.map_none]
    simp only [Option.bind_eq_some_iff] at hr
    obtain ⟨lr, h5, e', h6, q2, h7, hr⟩ := hr
    have d1 : W wp / 4 = W (wp / 4) := by wn
    have d2 : W (wp / 4) * 4 = W (wp / 4 * 4) := (W_mul _ _).symm
    have d3 : W wp % 4 + 1 = W (wp % 4 + 1) := by wn
    rw [s32_local h5 hsh, h6, bind_pure_some, d1, d2, d3, findCloseInBlock_sim hbits h7, bind_pure_some]
    cases q2 with
    | some ret =>
      simp only [pure, Option.some.injEq] at hr
      rw [← hr]; rfl
    | none =>
      simp only [Option.bind_eq_some_iff] at hr
      obtain ⟨pe, k1, fb, k2, fe, k3, e2', k4, q3, k5, k6⟩ := hr
      have d4 : W (wp / 4) + 1 = W (wp / 4 + 1) := (W_add _ _).symm
      have d5 : W fb * 4 = W (fb * 4) := (W_mul _ _).symm
      simp only [Option.map_none]
      rw [excess_sim h k1, bind_pure_some, d4, searchMinTree_sim h (by omega) k2, bind_pure_some,
        show blockExcess (enc v).rs (W fb) = some fe from (blockExcess_sim h.rs h.len k3).1, bind_pure_some, k4, bind_pure_some, d5,
        show (0 : Word) = W 0 from rfl, findCloseInBlock_sim hbits k5, bind_pure_some, k6]
      rfl

theorem findOpen_sim (ov : Word → Nat → Word) (h : Small v l) {pos r : Nat} (hp : pos ≤ l.length) (hr : v.findOpen ov pos = some r) :
    (enc v).findOpen ov (W pos) = some (W r) := by
  have hl := h.len
  have hbits := bits_len h.rs h.len
  unfold Succinct.BpVector.findOpen at hr
  simp only [Option.bind_eq_bind, Option.bind_eq_some_iff] at hr
  obtain ⟨_, h2, w, h3, q, h4, hr⟩ := hr
  have hpos := assert_of h2
  have e2 : W pos / 64 = W (pos / 64) := by wn
  have e3 : W pos % 64 = W (pos % 64) := by wn
  have a2 : assertP (W pos ≠ 0) = some () := assert_yes (by wn)
  have hsh : pos % 64 < 64 := by omega
  have hwp : pos / 64 < 2^57 + 1 := by omega
  generalize pos % 64 = sh at *
  generalize pos / 64 = wp at *
  have e5 : ((64 : Word) - W sh).toNat = 64 - sh := by
    rw [show (64 : Word) = W 64 from rfl, ← W_sub _ _ (by omega), W_toNat _ (by omega)]
  unfold findOpen
  rw [a2, bind_pure_some]
  simp only [e2, e3]
  rw [show (enc v).rs.bv.bits = v.rs.bv.bits from rfl, at_W (by omega) h3, bind_pure_some]
  simp only [e5, negBool_W _ hsh]
  generalize (negBool (decide (sh ≠ 0)) &&& shlOv ov w (64 - sh)) = padded at *
  generalize byteCounts padded = bc at *
  rw [findOpenInWord_sim h4, bind_pure_some]
  cases q with
  | some ret =>
    obtain ⟨r1, r2⟩ := subU_of hr
    simp only [Option.map_some, pure, Option.some.injEq]
    rw [r2, W_sub _ _ r1, W_add]
    generalize W ret = x
    generalize W pos = y
    show x + (y - 64) = x + y - 64
    bv_omega
  | none =>
    simp only [Option.map_none]
    simp only [Option.bind_eq_some_iff] at hr
    obtain ⟨le, h5, e', h6, q2, h7, hr⟩ := hr
    have d1 : W wp / 4 = W (wp / 4) := by wn
    have d2 : W (wp / 4) * 4 = W (wp / 4 * 4) := (W_mul _ _).symm
    have d3 : W wp % 4 = W (wp % 4) := by wn
    rw [s32_len, h5, bind_pure_some, h6, bind_pure_some, d1, d2, d3, findOpenInBlock_sim hbits (by omega) h7, bind_pure_some]
    cases q2 with
    | some ret =>
      simp only [pure, Option.some.injEq] at hr
      rw [← hr]; rfl
    | none =>
      simp only [Option.bind_eq_some_iff] at hr
      obtain ⟨ex, k0, pe, k1, pb, k7, fb, k2, fe, k3, e2', k4, q3, k5, k6⟩ := hr
      obtain ⟨p1, p2⟩ := subU_of k7
      have d4 : W (wp / 4) - 1 = W pb := by rw [p2, W_sub _ _ p1]; rfl
      have d5 : W fb * 4 = W (fb * 4) := (W_mul _ _).symm
      have d6 : W fb + 1 = W (fb + 1) := (W_add _ _).symm
      simp only [Option.map_none]
      rw [excess_sim h k0, bind_pure_some, k1, bind_pure_some, d4, searchMinTree_sim h (by omega) k2, bind_pure_some, d6,
        show blockExcess (enc v).rs (W (fb + 1)) = some fe from (blockExcess_sim h.rs h.len k3).1, bind_pure_some, k4, bind_pure_some, d5,
        show (4 : Word) = W 4 from rfl, findOpenInBlock_sim hbits (by omega) k5, bind_pure_some, k6]
      rfl

theorem enclose_sim (ov : Word → Nat → Word) (h : Small v l) {pos r : Nat} (hr : v.enclose ov pos = some r) :
    (enc v).enclose ov (W pos) = some (W r) := by
  unfold Succinct.BpVector.enclose at hr
  simp only [Option.bind_eq_bind, Option.bind_eq_some_iff] at hr
  obtain ⟨b, h1, _, h2, hr⟩ := hr
  obtain ⟨a1, a2⟩ := access_sim h h1
  unfold enclose
  rw [a1, bind_pure_some, h2, bind_pure_some]
  exact findOpen_sim ov h (by omega) hr

/-! ## `excess_rmq` -/

theorem rmqWords_sim {bits : List Word} (hb : bits.length ≤ 2^57) {stop : Nat} (hs : stop < 2^63) :
    ∀ (k w fuel : Nat) (s r : Succinct.Bp.Rmq), k = stop - w → k ≤ fuel → w < 2^63 →
      Succinct.BpVector.rmqWords bits k w s = some r → rmqWords bits (W stop) fuel (W w) (encRmq s) = some (encRmq r)
  | 0, w, fuel, s, r, h1, _, hw, h => by
    simp only [Succinct.BpVector.rmqWords, Option.some.injEq] at h
    unfold rmqWords
    rw [if_neg (by wn), ← h]
  | k+1, w, 0, s, r, h1, hf, _, h => by omega
  | k+1, w, fuel+1, s, r, h1, hf, hw, h => by
    simp only [Succinct.BpVector.rmqWords, Option.bind_eq_bind, Option.bind_eq_some_iff] at h
    obtain ⟨x, hx, s', hs', h⟩ := h
    have hlt := rd_lt hx
    unfold rmqWords
    have e1 : W w * 64 = W (w * 64) := (W_mul _ _).symm
    have e2 : W w + 1 = W (w + 1) := (W_add _ _).symm
    rw [if_pos (by wn)]
    simp only []
    rw [at_W (show w < 2^64 by omega) hx, bind_pure_some, e1, rmqInWord_sim hs', bind_pure_some, e2]
    exact rmqWords_sim hb hs k (w+1) fuel s' r (by omega) (by omega) (by omega) h

theorem rmqInBlock_sim {bits : List Word} (hb : bits.length ≤ 2^57) {start stop : Nat} (hs : stop < 2^63) {s r : Succinct.Bp.Rmq}
    (h : Succinct.BpVector.rmqInBlock bits start stop s = some r) :
    rmqInBlock bits (W start) (W stop) (encRmq s) = some (encRmq r) := by
  unfold Succinct.BpVector.rmqInBlock at h
  simp only [Option.bind_eq_bind, Option.bind_eq_some_iff] at h
  obtain ⟨_, h1, h⟩ := h
  have hle := assert_of h1
  unfold rmqInBlock
  rw [assert_yes (show W start ≤ W stop by wn), bind_pure_some]
  have hc : W start = W stop ↔ start = stop := W_inj _ _ (by omega) (by omega)
  by_cases he : start = stop
  · rw [if_pos he] at h
    rw [if_pos (hc.2 he)]
    simp only [pure, Option.some.injEq] at h
    rw [h]; rfl
  · rw [if_neg he] at h
    rw [if_neg (fun c => he (hc.1 c))]
    simp only [Option.bind_eq_some_iff] at h
    obtain ⟨_, h2, h⟩ := h
    have h3 := assert_of h2
    rw [assert_yes (show W start / 4 = (W stop - 1) / 4 by wn), bind_pure_some]
    exact rmqWords_sim hb hs _ _ _ _ _ rfl (by omega) (by omega) h

/-- a minimum and its position in memory -/
def encP (s : Int × Nat) : Int × Word := (s.1, W s.2)

theorem rmqBlocks_sim {mins : List Int} (hm : mins.length ≤ 2^55) {x : Int} {stop : Nat} (hs : stop < 2^63) :
    ∀ (k b fuel : Nat) (s r : Int × Nat), k = stop - b → k ≤ fuel → b < 2^63 →
      Succinct.BpVector.rmqBlocks mins x k b s = some r → rmqBlocks mins x (W stop) fuel (W b) (encP s) = some (encP r)
  | 0, w, fuel, s, r, h1, _, hw, h => by
    simp only [Succinct.BpVector.rmqBlocks, Option.some.injEq] at h
    unfold rmqBlocks
    rw [if_neg (by wn), ← h]
  | k+1, w, 0, s, r, h1, hf, _, h => by omega
  | k+1, w, fuel+1, s, r, h1, hf, hw, h => by
    simp only [Succinct.BpVector.rmqBlocks, Option.bind_eq_bind, Option.bind_eq_some_iff] at h
    obtain ⟨m, hx, e, he, h⟩ := h
    have hlt := rd_lt hx
    unfold rmqBlocks
    have e2 : W w + 1 = W (w + 1) := (W_add _ _).symm
    have e3 : (if e < (encP s).1 then (e, W w) else encP s) = encP (if e < s.1 then (e, w) else s) := by
      by_cases hc : e < s.1
      · rw [if_pos hc, if_pos (show e < (encP s).1 from hc)]; rfl
      · rw [if_neg hc, if_neg (show ¬ e < (encP s).1 from hc)]
    rw [if_pos (by wn)]
    simp only []
    rw [at_W (show w < 2^64 by omega) hx, bind_pure_some, he, bind_pure_some, e2, e3]
    exact rmqBlocks_sim hm hs k (w+1) fuel _ r (by omega) (by omega) (by omega) h

theorem rmqInSuperblock_sim (h : Small v l) {start stop : Nat} (hs : stop < 2^63) {s r : Int × Nat}
    (hr : v.rmqInSuperblock start stop s = some r) : (enc v).rmqInSuperblock (W start) (W stop) (encP s) = some (encP r) := by
  unfold Succinct.BpVector.rmqInSuperblock at hr
  simp only [Option.bind_eq_bind, Option.bind_eq_some_iff] at hr
  obtain ⟨_, h1, hr⟩ := hr
  have hle := assert_of h1
  unfold rmqInSuperblock
  rw [assert_yes (show W start ≤ W stop by wn), bind_pure_some]
  have hc : W start = W stop ↔ start = stop := W_inj _ _ (by omega) (by omega)
  by_cases he : start = stop
  · rw [if_pos he] at hr
    rw [if_pos (hc.2 he)]
    simp only [pure, Option.some.injEq] at hr
    rw [hr]; rfl
  · rw [if_neg he] at hr
    rw [if_neg (fun c => he (hc.1 c))]
    simp only [Option.bind_eq_some_iff] at hr
    obtain ⟨_, h2, x, h4, hr⟩ := hr
    have h3 := assert_of h2
    have e1 : W start / 32 = W (start / 32) := by wn
    have e2 : W (start / 32) * 32 = W (start / 32 * 32) := (W_mul _ _).symm
    have e3 : W (start / 32) = (W stop - 1) / 32 := by wn
    simp only [e1, e2]
    rw [assert_yes e3, bind_pure_some, show blockExcess (enc v).rs _ = some x from (blockExcess_sim h.rs h.len h4).1, bind_pure_some]
    exact rmqBlocks_sim h.blocks hs _ _ _ _ _ rfl (by omega) (by omega) hr

theorem betterNode_sim {tree : List Int} {c : Bool} {node : Nat} (hn : node < 2^64) {s r : Int × Nat}
    (h : Succinct.BpVector.betterNode tree c node s = some r) : betterNode tree c (W node) (encP s) = some (encP r) := by
  unfold Succinct.BpVector.betterNode at h
  unfold betterNode
  cases c with
  | false => simp only [Bool.false_eq_true, if_false, Option.some.injEq] at h ⊢; rw [h]
  | true =>
    simp only [if_true, Option.bind_eq_bind, Option.bind_eq_some_iff] at h
    obtain ⟨x, hx, h⟩ := h
    rw [if_pos rfl, at_W hn hx, bind_pure_some]
    simp only [pure, Option.some.injEq] at h ⊢
    rw [← h]
    by_cases hc : x < s.1
    · rw [if_pos hc, if_pos (show x < (encP s).1 from hc)]; rfl
    · rw [if_neg hc, if_neg (show ¬ x < (encP s).1 from hc)]

/-- the position of the candidate stays in range -/
theorem betterNode_le {tree : List Int} {c : Bool} {node B : Nat} {s r : Int × Nat} (hn : node ≤ B) (hs : s.2 ≤ B)
    (h : Succinct.BpVector.betterNode tree c node s = some r) : r.2 ≤ B := by
  unfold Succinct.BpVector.betterNode at h
  cases c with
  | false => simp only [Bool.false_eq_true, if_false, Option.some.injEq] at h; rw [← h]; exact hs
  | true =>
    simp only [if_true, Option.bind_eq_bind, Option.bind_eq_some_iff, pure, Option.some.injEq] at h
    obtain ⟨x, hx, h⟩ := h
    rw [← h]
    split
    · exact hn
    · exact hs

/-- the local variables in memory -/
def encW (s : Succinct.BpVector.Walk) : Walk := ⟨W s.node, W s.span, W s.h, encP s.best⟩

theorem walkUp_sim {tree : List Int} {stop N : Nat} (hs : stop < 2^62) (h0 : 0 < stop) (hN : N < 2^60) :
    ∀ (fuel : Nat) (s r : Succinct.BpVector.Walk), s.node * 2^s.h ≤ N → s.span + 1 ≤ N + 2^s.h → s.best.2 ≤ N + 1 →
      Succinct.BpVector.walkUp tree stop fuel s = some r →
      walkUp tree (W stop) fuel (encW s) = some (encW r) ∧ r.node ≤ N + 1 ∧ r.span ≤ 3 * N ∧ r.h < 64 ∧ r.best.2 ≤ N + 1
  | 0, s, r, _, _, _, h => by simp [Succinct.BpVector.walkUp] at h
  | fuel+1, s, r, i1, i2, i3, h => by
    simp only [Succinct.BpVector.walkUp, Option.bind_eq_bind, Option.bind_eq_some_iff] at h
    obtain ⟨_, h1, h⟩ := h
    have hn0 := assert_of h1
    have hpow : 2^s.h ≤ N := Nat.le_trans (Nat.le_mul_of_pos_left _ (by omega)) i1
    have hnode : s.node ≤ N := Nat.le_trans (Nat.le_mul_of_pos_right _ (Nat.two_pow_pos _)) i1
    have hh : s.h < 60 := by
      apply Classical.byContradiction
      intro c
      have := Nat.pow_le_pow_right (show 0 < 2 by omega) (show 60 ≤ s.h by omega)
      omega
    have e1 : W s.node ≠ 0 := by wn
    have hhalf : s.node / 2 * 2^(s.h+1) ≤ N := by
      refine Nat.le_trans ?_ i1
      rw [Nat.pow_succ, Nat.mul_comm (2^s.h) 2, ← Nat.mul_assoc]
      exact Nat.mul_le_mul_right _ (by omega)
    have hp1 : (2:Nat)^(s.h+1) = 2^s.h + 2^s.h := by rw [Nat.pow_succ]; omega
    have hp0 := Nat.two_pow_pos s.h
    have e2 : W s.node / 2 = W (s.node / 2) := by wn
    have e3 : W s.h + 1 = W (s.h + 1) := (W_add _ _).symm
    have e4 : (W s.node &&& 1 = 0) ↔ s.node % 2 = 0 := by rw [and1]; wn
    unfold walkUp
    rw [show (encW s).node = W s.node from rfl, assert_yes e1, bind_pure_some]
    by_cases hc : s.node % 2 = 0
    · rw [if_pos hc] at h
      rw [if_pos (e4.2 hc)]
      simp only [Option.bind_eq_some_iff] at h
      obtain ⟨_, h2, b, h3, h⟩ := h
      have e5 : (encW s).h.toNat = s.h := W_toNat _ (by omega)
      have e6 : ((1 : Word) <<< s.h) = W (2^s.h) := by
        apply BitVec.eq_of_toNat_eq
        rw [W_toNat _ (by omega), BitVec.toNat_shiftLeft, show (1 : Word).toNat = 1 from rfl, Nat.shiftLeft_eq, Nat.one_mul]
        exact Nat.mod_eq_of_lt (by omega)
      have e7 : W s.span + W (2^s.h) = W (s.span + 2^s.h) := (W_add _ _).symm
      have e8 : (W (s.span + 2^s.h) < W stop) ↔ s.span + 2^s.h < stop := W_lt _ _ (by omega) (by omega)
      have e9 : (W (s.span + 2^s.h) ≥ W stop - 1) ↔ s.span + 2^s.h ≥ stop - 1 := by
        have hz : s.span + 2^s.h < 2^62 := by omega
        generalize s.span + 2^s.h = z at *
        wn
      have e10 : W s.node + 1 = W (s.node + 1) := (W_add _ _).symm
      rw [e5, shl_eq _ _ (by omega), bind_pure_some, e6, show (encW s).span = W s.span from rfl]
      simp only [e7, e8, e9, e10]
      rw [show (encW s).best = encP s.best from rfl, betterNode_sim (by omega) h3, bind_pure_some]
      have hb := betterNode_le (B := N + 1) (by omega) i3 h3
      by_cases hd : s.span + 2^s.h ≥ stop - 1
      · rw [if_pos hd] at h
        rw [if_pos hd]
        simp only [pure, Option.some.injEq] at h
        rw [← h]
        exact ⟨rfl, by show s.node + 1 ≤ N + 1; omega, by show s.span + 2^s.h ≤ 3*N; omega, by show s.h < 64; omega, hb⟩
      · rw [if_neg hd] at h
        rw [if_neg hd]
        have := walkUp_sim hs h0 hN fuel ⟨s.node/2, s.span + 2^s.h, s.h + 1, b⟩ r hhalf (by simp only []; omega) hb h
        simp only [encW, ← e2, ← e3] at this ⊢
        exact this
    · rw [if_neg hc] at h
      rw [if_neg (fun c => hc (e4.1 c))]
      have := walkUp_sim hs h0 hN fuel ⟨s.node/2, s.span, s.h + 1, s.best⟩ r hhalf (by simp only []; omega) i3 h
      simp only [encW, ← e2, ← e3] at this ⊢
      exact this

end BpVector
end Machine
end Succinct
