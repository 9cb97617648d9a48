import Verif.Lemmas.ReleaseBuilder
import Verif.Lemmas.ReleaseBV
import Verif.Lemmas.ReleaseRank
import Verif.Props.BitVector
import Verif.Props.RSBitVector
import Verif.Props.Agree

/-! # C109: the builder with assertions compiled out -/
namespace Succinct
open Spec Release
open RSBitVector (bind_pure_some)

theorem Release.words_flat (ws : List Word) : (ws.flatMap wordBits).length = 64 * ws.length ∧ ∀ p, bitFn (ws.flatMap wordBits) p = wbit ws p := by
  induction ws with
  | nil => exact ⟨rfl, fun p => by rw [wbit_nil]; rfl⟩
  | cons w ws ih =>
    have hl : (wordBits w).length = 64 := by simp [wordBits]
    refine ⟨?_, fun p => ?_⟩
    · rw [List.flatMap_cons, List.length_append, ih.1, hl, List.length_cons]; omega
    · rw [List.flatMap_cons, bitFn_append, hl, bitFn_wordBits, ih.2, wbit_cons]

theorem Release.RInv.flat {b : Builder} {r : Raw} (h : RInv b r) : b.bits.flatMap wordBits = r.bits := by
  apply bitFn_ext
  · rw [(words_flat _).1, h.len, h.rlen]
  · intro p; rw [(words_flat _).2, h.bit]

/-- **C109.** The words and the size that any history of calls without overlong fields leaves in the builder; the history is undefined
behaviour exactly when a `set` or `set_bits` writes outside of the buffer. -/
theorem C109_builder (p : Prog) (h : p.Tame) :
    (bRun p).map (fun b => (b.size, b.bits.flatMap wordBits)) = p.raw.map fun r => (r.size, r.bits) := by
  obtain ⟨h1, h2⟩ := bRun_raw p h
  cases hr : p.raw with
  | none => rw [h2 hr]; rfl
  | some r =>
    obtain ⟨b, e, hi⟩ := h1 r hr
    rw [e, Option.map_some, Option.map_some, hi.size, hi.flat]

/-- **C109.** Whatever the builder with assertions computes, the one without them computes as well. -/
theorem C109_same_answers (p : Prog) (b : Builder) (h : Builder.run p = some b) : bRun p = some b := by
  have ab : ∀ (b : Builder) x len, Below (b.appendBits x len) (bAppendBits b x len) := by
    intro b x len
    unfold Builder.appendBits bAppendBits
    exact Below.drop fun _ => Below.rfl
  have oe : ∀ fuel (b : Builder) n, Below (Builder.oneExtendLoop fuel b n) (bOneExtendLoop fuel b n) := by
    intro fuel
    induction fuel with
    | zero =>
      intro b n
      unfold Builder.oneExtendLoop bOneExtendLoop
      exact Below.ite Below.rfl (Below.ite (Below.keep fun _ => ab _ _ _) Below.rfl)
    | succ fuel ih =>
      intro b n
      unfold Builder.oneExtendLoop bOneExtendLoop
      exact Below.ite (Below.bind (ab _ _ _) fun _ => ih _ _) (Below.ite (Below.keep fun _ => ab _ _ _) Below.rfl)
  suffices hs : Below (Builder.run p) (bRun p) from hs b h
  clear h b
  induction p with
  | new n x => exact Below.rfl
  | pushBack p x ih => exact Below.bind ih fun _ => Below.rfl
  | set p pos x ih => exact Below.bind ih fun _ => Below.rfl
  | setBits p pos x len ih =>
    refine Below.bind ih fun b => ?_
    unfold Builder.setBits bSetBits
    exact Below.drop fun _ => Below.drop fun _ => Below.rfl
  | appendBits p x len ih => exact Below.bind ih fun b => ab _ _ _
  | zeroExtend p n ih => exact Below.bind ih fun _ => Below.rfl
  | oneExtend p n ih => exact Below.bind ih fun b => oe _ _ _
  | append p q ihp ihq => exact Below.bind ihp fun _ => Below.bind ihq fun _ => Below.rfl
  | reverse p ih =>
    refine Below.bind ih fun b => ?_
    unfold Builder.reverse bReverse
    exact Below.keep fun x => Below.drop fun _ => Below.rfl
  | reserve p r ih => exact Below.bind ih fun _ => Below.rfl

/-- **C109.** Histories that keep the preconditions are covered by `C109_builder`, and leave the specified bits with zeros behind them. -/
theorem C109_contract (p : Prog) (l : List Bool) (h : p.spec = some l) (hr : p.ReserveAligned) :
    p.Tame ∧ p.raw = some ⟨l.length, padded l⟩ := by
  have key : ∀ (p : Prog) (l : List Bool), p.Tame → p.spec = some l → p.ReserveAligned → p.raw = some ⟨l.length, padded l⟩ := by
    intro p l ht h hr
    obtain ⟨b, e, hi⟩ := Builder.run_inv p l h hr
    have e' := C109_same_answers p b e
    obtain ⟨h1, h2⟩ := bRun_raw p ht
    cases hq : p.raw with
    | none => rw [h2 hq] at e'; cases e'
    | some r =>
      obtain ⟨b', f, hi'⟩ := h1 r hq
      rw [e'] at f
      cases f
      obtain ⟨n, bits⟩ := r
      have hs : n = l.length := by rw [← hi.size]; exact hi'.size.symm
      subst hs
      have : bits = padded l := by
        apply bitFn_ext
        · rw [padded_length]; exact hi'.rlen
        · intro q; rw [padded_bitFn, ← hi.repr.bit]; exact (hi'.bit q).symm
      rw [this]
  suffices ht : p.Tame from ⟨ht, key p l ht h hr⟩
  induction p generalizing l with
  | new n x => trivial
  | pushBack p x ih | set p pos x ih | zeroExtend p n ih | oneExtend p n ih | reverse p ih =>
    simp only [Prog.spec, Option.bind_eq_bind, Option.bind_eq_some_iff] at h
    obtain ⟨m, hm, _⟩ := h
    exact ih m hm hr
  | setBits p pos x len ih =>
    simp only [Prog.spec, Option.bind_eq_bind, Option.bind_eq_some_iff] at h
    obtain ⟨m, hm, hc⟩ := h
    split at hc
    · next hf => exact ⟨ih m hm hr, hf.2.1⟩
    · cases hc
  | appendBits p x len ih =>
    simp only [Prog.spec, Option.bind_eq_bind, Option.bind_eq_some_iff] at h
    obtain ⟨m, hm, hc⟩ := h
    split at hc
    · next hf => exact ⟨ih m hm hr, hf.1⟩
    · cases hc
  | append p q ihp ihq =>
    simp only [Prog.spec, Option.bind_eq_bind, Option.bind_eq_some_iff] at h
    obtain ⟨m, hm, k, hk, _⟩ := h
    exact ⟨ihp m hm hr.1, ihq k hk hr.2⟩
  | reserve p re ih =>
    refine ⟨ih l h hr.1, fun hre s hs => ?_⟩
    rw [key p l (ih l h hr.1) h hr.1] at hs
    cases hs
    exact hr.2 hre l h

/-- a history whose second field carries a stray bit, overwritten in part, with a straddling field and a `reverse` behind -/
def rawProg : Prog := .reverse (.appendBits (.setBits (.appendBits (.new 60 false) 0x13 2) 50 0xFFF 3) 0x7 8)

example : rawProg.Tame ∧ rawProg.spec = none ∧ Builder.run rawProg = none ∧
    rawProg.raw.map (fun r => (r.size, r.bits.length, r.bits.count true)) = some (70, 128, 15) := by
  refine ⟨?_, ?_⟩
  · simp [rawProg, Prog.Tame]
  · decide +kernel

example : (exampleProg.raw.map fun r => (r.size, r.bits.length)) = some (140, 192) := by decide +kernel

/-- **C109.** The superfluous bits of a field are not dropped: four `push_back(0)` behind `append_bits(0xFF, 4)` yield ones.  With
assertions the field is refused. -/
theorem C109_stray_false :
    let p := Prog.pushBack (.pushBack (.pushBack (.pushBack (.appendBits (.new 0 false) 0xFF 4) false) false) false) false
    (bRun p).map (fun b => (b.size, (b.bits.flatMap wordBits).take b.size)) = some (8, List.replicate 8 true) ∧ Builder.run p = none := by
  decide +kernel

/-- **C109.** Fields longer than a word break the invariant of the size: `append_bits(0, 65)` adds one word for 65 bits, and the bit
pushed next, number 65, ends in position 1. -/
theorem C109_long_false :
    (bRun (.appendBits (.new 0 false) 0 65)).map (fun b => (b.size, b.bits)) = some (65, [0]) ∧
    (bRun (.pushBack (.appendBits (.new 0 false) 0 65) true)).map (fun b => (b.size, b.bits)) = some (66, [2]) := by
  decide +kernel

/-- **C109.** A reallocating `reserve` within a word is as undefined as with assertions. -/
theorem C109_reserve_false : ∃ p l, Prog.spec p = some l ∧ bRun p = none :=
  ⟨.pushBack (.reserve (.pushBack (.new 0 false) true) true) true, _, rfl, by decide +kernel⟩

/-- the index is made from the words alone -/
theorem Release.build_bv (ws : List Word) (m n : Nat) (w w0 : Bool) (v : RSBitVector) (h : RSBitVector.build ⟨m, ws⟩ w w0 = some v) :
    v.bv = ⟨m, ws⟩ ∧ RSBitVector.build ⟨n, ws⟩ w w0 = some { v with bv := ⟨n, ws⟩ } := by
  unfold RSBitVector.build at h ⊢
  dsimp only at h ⊢
  cases e : RSBitVector.numBlocks (RSBitVector.buildPairs ws) with
  | none => rw [e] at h; cases h
  | some nb =>
    rw [e] at h
    rw [bind_pure_some] at h ⊢
    generalize RSBitVector.buildHints (RSBitVector.blockRank (RSBitVector.buildPairs ws)) nb = H1 at h ⊢
    generalize RSBitVector.buildHints (RSBitVector.blockRank0 (RSBitVector.buildPairs ws)) nb = H0 at h ⊢
    cases w <;> cases w0 <;> cases H1 <;> cases H0 <;> first | (cases h; done) | (cases Option.some.inj h; exact ⟨rfl, rfl⟩)

/-- **C109.** `rs_bit_vector` counts the ones behind the end of the vector: `num_ones`, `select` and `rank(size)` include them, `rank`
before the end does not. -/
theorem C109_rs_bit_vector (p : Prog) (r : Raw) (h : p.Tame) (hr : p.raw = some r) (w w0 : Bool) :
    ∃ b v, bRun p = some b ∧ RSBitVector.build (bitVector b) w w0 = some v ∧
      v.numOnes = some (r.bits.count true) ∧ v.rank r.size = some (r.bits.count true) ∧
      (∀ pos, pos < r.size → v.rank pos = some (rank1 (r.bits.take r.size) pos)) ∧
      (∀ n q, v.select n = some q ↔ IsSelect1 r.bits n q) := by
  obtain ⟨b, e, hi⟩ := (bRun_raw p h).1 r hr
  have hrl := hi.rlen
  have hof : BitVector.ofRange r.bits = ⟨64 * b.bits.length, b.bits⟩ := by
    refine (BitVector.eq_ofRange ⟨?_, ?_, hi.bit⟩).symm
    · show 64 * b.bits.length = _; rw [hi.len, hi.rlen]
    · show b.bits.length = _; rw [wordsFor_eq, hi.len, hi.rlen]; omega
  obtain ⟨v, e1, e2, e3, e4, e5⟩ := C14_rank r.bits w w0
  obtain ⟨v', f1, f2, f3⟩ := C15_select r.bits w w0
  rw [e1] at f1
  cases Option.some.inj f1
  rw [hof] at e1
  obtain ⟨hvv, hb⟩ := build_bv b.bits _ b.size w w0 v e1
  have hvb : v.bv.bits = b.bits := by rw [hvv]
  have hvs : v.bv.size = r.bits.length := by rw [hvv]; show 64 * b.bits.length = _; rw [hi.len, hi.rlen]
  have hsz : b.size = r.size := hi.size
  refine ⟨b, _, e, hb, e2, ?_, ?_, ?_⟩
  · unfold RSBitVector.rank
    dsimp only
    rw [hsz, assertP_eq _ (Nat.le_refl _), bind_pure_some, if_pos rfl]
    exact e2
  · intro pos hp
    have := (e4 pos (by omega)).1
    unfold RSBitVector.rank at this ⊢
    dsimp only at this ⊢
    rw [assertP_eq _ (by omega), bind_pure_some, if_neg (by omega), hvb] at this
    rw [hsz, assertP_eq _ (by omega), bind_pure_some, if_neg (by omega)]
    rw [this]
    congr 1
    unfold rank1
    rw [List.take_take, Nat.min_eq_left (by omega)]
  · intro n q
    have hsel : RSBitVector.select { v with bv := bitVector b } n = v.select n := by
      unfold RSBitVector.select
      dsimp only
      rw [show (bitVector b).bits = v.bv.bits from hvb.symm]
      rfl
    rw [show (⟨b.size, b.bits⟩ : BitVector) = bitVector b from rfl, hsel]
    by_cases hn : n < r.bits.count true
    · obtain ⟨q', g1, g2⟩ := f2 n hn
      rw [g1]
      constructor
      · intro hq; cases hq; exact g2
      · intro hq; rw [isSelect1_unique g2 hq]
    · rw [f3 n (by omega)]
      refine ⟨fun hq => by (cases hq), fun hq => ?_⟩
      exact absurd (isSelect1_lt hq).2 hn

end Succinct
