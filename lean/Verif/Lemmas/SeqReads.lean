import Verif.Model.SeqReads
import Verif.Spec.SeqReads
import Verif.Props.Reads
import Verif.Props.EliasFano
import Verif.Props.Gamma

/-! Reads of the enumerators of `elias_fano`, `gamma_vector` and `gamma_bit_vector` -/
namespace Succinct
open Spec Broadword

open RSBitVector (bind_pure_some)

namespace UEnum

theorem newR_eq (bits : List Word) (p : Nat) : newR bits p = (new bits p).map fun e => (e, [p / 64]) := by
  unfold newR new
  cases rd bits (p / 64) with
  | none => rfl
  | some w =>
    rw [bind_pure_some, bind_pure_some]
    cases shl (BitVec.allOnes 64) (p % 64) <;> rfl

theorem next_pos (bits : List Word) (u u' : UEnum) (q : Nat) (h : next bits u = some (q, u')) : u'.position = q := by
  unfold next at h
  obtain ⟨⟨p, b, r⟩, _, h⟩ := Option.bind_eq_some_iff.1 h
  cases h
  rfl

theorem nextR_of (bits : List Word) (u u' : UEnum) (q : Nat) (h : next bits u = some (q, u')) :
    nextR bits u = some (q, u', wordsTo u.position q) ∧ u.position / 64 ≤ q / 64 := by
  obtain ⟨h1, h2⟩ := next_R bits u
  rw [h] at h1
  obtain ⟨⟨q1, u1, t⟩, h3, h4⟩ := Option.map_eq_some_iff.1 h1
  cases h4
  obtain ⟨h5, h6⟩ := h2 _ _ _ h3
  have h7 := next_pos bits u _ _ h
  dsimp only at h7 ⊢
  rw [h7] at h5 h6
  exact ⟨by rw [h3, h6], h5⟩

end UEnum

namespace Enum

theorem takeF_of (v : BitVector) (e e' : Enum) (l : Nat) (w : Word) (h : take v e l = some (w, e')) :
    ∃ f, takeF v e l = some (w, e', f) ∧ (e.avail < l → f = 1 ∧ e'.avail = wsub 64 l) ∧ (l ≤ e.avail → f = 0 ∧ e'.avail = e.avail - l) := by
  obtain ⟨h1, h2⟩ := takeF_spec v e l
  rw [h] at h1
  obtain ⟨⟨w1, e1, f⟩, h3, h4⟩ := Option.map_eq_some_iff.1 h1
  cases h4
  obtain ⟨_, h5, h6⟩ := h2 _ _ _ h3
  exact ⟨f, h3, h5, h6⟩

/-- what holds of the calls of `fill_buf` (`f`) and the bits taken (`T`) when `a` bits are left: two fills are needed for 65 bits -/
def Fills (f T a : Nat) : Prop :=
  a ≤ 64 ∧ ((f = 0 ∧ a = 0) ∨ ∃ j, (f = 2 * j + 1 ∧ 65 * j + 64 ≤ T + a) ∨ (f = 2 * j + 2 ∧ 65 * (j + 1) ≤ T))

theorem Fills.bound {f T a : Nat} (h : Fills f T a) : f ≤ 2 * (T / 65) + 1 := by
  obtain ⟨h0, ⟨h, _⟩ | ⟨j, ⟨h, h1⟩ | ⟨h, h1⟩⟩⟩ := h <;> omega

theorem Fills.fill {f T a l : Nat} (h : Fills f T a) (hl : a < l) (hl64 : l ≤ 64) : Fills (f + 1) (T + l) (64 - l) := by
  obtain ⟨h0, ⟨h, _⟩ | ⟨j, ⟨h, h1⟩ | ⟨h, h1⟩⟩⟩ := h
  · exact ⟨by omega, Or.inr ⟨0, Or.inl ⟨by omega, by omega⟩⟩⟩
  · exact ⟨by omega, Or.inr ⟨j, Or.inr ⟨by omega, by omega⟩⟩⟩
  · exact ⟨by omega, Or.inr ⟨j + 1, Or.inl ⟨by omega, by omega⟩⟩⟩

theorem Fills.keep {f T a l : Nat} (h : Fills f T a) (hl : l ≤ a) : Fills f (T + l) (a - l) := by
  obtain ⟨h0, ⟨h, _⟩ | ⟨j, ⟨h, h1⟩ | ⟨h, h1⟩⟩⟩ := h
  · exact ⟨by omega, Or.inl ⟨by omega, by omega⟩⟩
  · exact ⟨by omega, Or.inr ⟨j, Or.inl ⟨by omega, by omega⟩⟩⟩
  · exact ⟨by omega, Or.inr ⟨j, Or.inr ⟨by omega, by omega⟩⟩⟩

theorem Fills.take {f T l g : Nat} {e e' : Enum} (h : Fills f T e.avail) (hl : l ≤ 64) (h1 : e.avail < l → g = 1 ∧ e'.avail = wsub 64 l)
    (h2 : l ≤ e.avail → g = 0 ∧ e'.avail = e.avail - l) : Fills (f + g) (T + l) e'.avail := by
  by_cases c : e.avail < l
  · obtain ⟨rfl, a⟩ := h1 c
    have : wsub 64 l = 64 - l := by unfold wsub; rw [if_pos hl]
    rw [a, this]
    exact h.fill c hl
  · obtain ⟨rfl, a⟩ := h2 (by omega)
    rw [a]
    exact h.keep (by omega)

end Enum

namespace EliasFano.SelEnum

theorem newR_eq (ef : EliasFano) (i : Nat) (e : SelEnum) (u : UEnum) (h : new ef i = some e) (hu : e.high = some u) :
    newR ef i = some (e, [u.position / 64]) := by
  unfold new at h
  unfold newR
  obtain ⟨m, h1, h⟩ := Option.bind_eq_some_iff.1 h
  rw [h1, bind_pure_some]
  by_cases c : ef.numOnes = 0
  · simp only [if_pos c] at h
    cases h
    cases hu
  · simp only [if_neg c] at h ⊢
    obtain ⟨p, h2, h⟩ := Option.bind_eq_some_iff.1 h
    obtain ⟨u1, h3, h⟩ := Option.bind_eq_some_iff.1 h
    obtain ⟨_, h4, h⟩ := Option.bind_eq_some_iff.1 h
    cases h
    cases hu
    have hp : u.position = p := by
      unfold UEnum.new at h3
      obtain ⟨w, _, h3⟩ := Option.bind_eq_some_iff.1 h3
      obtain ⟨m, _, h3⟩ := Option.bind_eq_some_iff.1 h3
      cases h3
      rfl
    rw [h2, bind_pure_some, UEnum.newR_eq, h3, Option.map_some, bind_pure_some]
    dsimp only
    rw [h4, bind_pure_some, hp]
    rfl

theorem refillR_of (ef : EliasFano) (e : SelEnum) (buf : Word) (avail : Nat) (h : refill ef e = some (buf, avail)) :
    refillR ef e = some (buf, avail, if e.chunksAvail = 0 then [e.i * ef.l] else []) ∧
      avail = if e.chunksAvail = 0 then 64 / ef.l - 1 else e.chunksAvail - 1 := by
  unfold refill at h
  unfold refillR
  by_cases c : e.chunksAvail = 0
  · simp only [if_pos c] at h ⊢
    obtain ⟨w, h1, h⟩ := Option.bind_eq_some_iff.1 h
    obtain ⟨a, h2, h⟩ := Option.bind_eq_some_iff.1 h
    cases h
    rw [h1, bind_pure_some, h2]
    refine ⟨rfl, ?_⟩
    by_cases hl : ef.l ≠ 0
    · rw [if_pos hl] at h2
      unfold subU at h2
      by_cases h3 : 1 ≤ 64 / ef.l
      · rw [if_pos h3] at h2
        cases h2
        rfl
      · rw [if_neg h3] at h2
        cases h2
    · rw [if_neg hl] at h2
      cases h2
  · simp only [if_neg c] at h ⊢
    cases h
    exact ⟨rfl, rfl⟩

/-- what a call of `next` reads -/
theorem nextR_of (ef : EliasFano) (e e' : SelEnum) (x : Word) (h : next ef e = some (x, e')) :
    ∃ u u' q, e.high = some u ∧ e'.high = some u' ∧ ef.d1.select false ef.high e.i = some q ∧ u'.position = q ∧ u.position / 64 ≤ q / 64 ∧
      nextR ef e = some (x, e', wordsTo u.position q, if e.chunksAvail = 0 then [e.i * ef.l] else []) ∧
      e'.i = e.i + 1 ∧ e'.chunksAvail = if e.chunksAvail = 0 then 64 / ef.l - 1 else e.chunksAvail - 1 := by
  unfold next at h
  obtain ⟨⟨buf, avail⟩, h1, h⟩ := Option.bind_eq_some_iff.1 h
  obtain ⟨u, h2, h⟩ := Option.bind_eq_some_iff.1 h
  obtain ⟨⟨q, u'⟩, h3, h⟩ := Option.bind_eq_some_iff.1 h
  obtain ⟨s, h4, h⟩ := Option.bind_eq_some_iff.1 h
  obtain ⟨_, h5, h⟩ := Option.bind_eq_some_iff.1 h
  obtain ⟨mask, h6, h⟩ := Option.bind_eq_some_iff.1 h
  obtain ⟨d, h7, h⟩ := Option.bind_eq_some_iff.1 h
  obtain ⟨y, h8, h⟩ := Option.bind_eq_some_iff.1 h
  obtain ⟨b, h9, h⟩ := Option.bind_eq_some_iff.1 h
  obtain ⟨g1, g2⟩ := refillR_of ef e buf avail h1
  obtain ⟨g3, g4⟩ := UEnum.nextR_of _ _ _ _ h3
  have g5 := UEnum.next_pos _ _ _ _ h3
  have hq : q = s := by
    by_contra hc
    unfold assertP at h5
    rw [if_neg hc] at h5
    cases h5
  cases h
  refine ⟨u, u', q, h2, rfl, by rw [h4, hq], g5, g4, ?_, rfl, g2⟩
  unfold nextR
  rw [g1, bind_pure_some]
  dsimp only
  rw [h2, bind_pure_some, g3, bind_pure_some]
  dsimp only
  rw [h4, bind_pure_some, h5, bind_pure_some, h6, bind_pure_some, h7, bind_pure_some, h8, bind_pure_some, h9, bind_pure_some]
  rfl

theorem fieldReads_cons (l i k : Nat) (hl : l ≠ 0) (hl64 : l < 64) (hk : 0 < k) :
    fieldReads l i k = i * l :: fieldReads l (i + 64 / l) (k - 64 / l) := by
  have hc : 0 < 64 / l := Nat.div_pos (by omega) (by omega)
  unfold fieldReads
  rw [if_neg hl, if_neg hl]
  generalize 64 / l = c at hc
  have e : (k + (c - 1)) / c = (k - c + (c - 1)) / c + 1 := by
    by_cases h : c ≤ k
    · rw [← Nat.add_div_right _ hc]
      congr 1
      omega
    · rw [show k - c + (c - 1) = c - 1 by omega, Nat.div_eq_of_lt (show c - 1 < c by omega), Nat.div_eq_iff hc]
      omega
  rw [e, List.range_succ_eq_map, List.map_cons, List.map_map, Nat.zero_mul, Nat.add_zero]
  congr 1
  apply List.map_congr_left
  intro j _
  show (i + (j + 1) * c) * l = (i + c + j * c) * l
  rw [Nat.succ_mul]
  congr 1
  omega

theorem fieldReads_zero (l i : Nat) : fieldReads l i 0 = [] := by
  unfold fieldReads
  by_cases hl : l = 0
  · rw [if_pos hl]
  · rw [if_neg hl]
    by_cases hc : 64 / l = 0
    · rw [hc]; rfl
    · rw [Nat.zero_add, Nat.div_eq_of_lt (Nat.sub_lt (Nat.pos_of_ne_zero hc) (by decide))]; rfl

variable {ef : EliasFano} {n : Word} {xs : List Word} {hb : List Bool}

theorem runR_ok (h : Good ef n xs hb) (H : Nat → Nat) (hH : ∀ j (hj : j < xs.length), H j = xs[j].toNat / 2^ef.l + j) (k : Nat) : ∀ (i : Nat)
    (_ : i + k ≤ xs.length) (e : SelEnum) (_ : Ok ef xs hb e i) (u : UEnum) (_ : e.high = some u),
    ∃ r, runR ef k e = some ((xs.drop i).take k, r, fieldReads ef.l (i + e.chunksAvail) (k - e.chunksAvail)) ∧
      (k = 0 → r = []) ∧ (k ≠ 0 → u.position / 64 ≤ H (i + k - 1) / 64 ∧ r = wordsTo u.position (H (i + k - 1))) := by
  induction k with
  | zero =>
    intro i hi e _ u hu
    exact ⟨[], by rw [Nat.zero_sub, fieldReads_zero]; simp [runR], fun _ => rfl, fun hk => absurd rfl hk⟩
  | succ k ih =>
    intro i hi e hg u hu
    obtain ⟨e', e1, g1⟩ := next_ok h e i (by omega) hg
    obtain ⟨u0, u', q, a1, a2, a3, a4, a5, a6, a7, a8⟩ := nextR_of ef e e' _ e1
    rw [hu] at a1
    cases a1
    rw [hg.idx, h.sel i (by omega)] at a3
    rw [← Option.some.inj a3] at a4 a5 a6
    obtain ⟨r, b1, b2, b3⟩ := ih (i + 1) (by omega) e' g1 u' a2
    have hHi := hH i (by omega)
    have hl := h.lb
    have hr : (if e.chunksAvail = 0 then [e.i * ef.l] else []) ++ fieldReads ef.l (i + 1 + e'.chunksAvail) (k - e'.chunksAvail) =
        fieldReads ef.l (i + e.chunksAvail) (k + 1 - e.chunksAvail) := by
      by_cases hc : e.chunksAvail = 0
      · have hl0 : ef.l ≠ 0 := fun h0 => by have := hg.zero h0; omega
        have := Nat.div_pos (show ef.l ≤ 64 by omega) (show 0 < ef.l by omega)
        rw [if_pos hc, a8, if_pos hc, hc, fieldReads_cons _ _ (k + 1 - 0) hl0 hl (by omega), hg.idx, List.singleton_append, Nat.add_zero]
        congr 2 <;> omega
      · rw [if_neg hc, a8, if_neg hc, List.nil_append]
        congr 1 <;> omega
    refine ⟨wordsTo u.position (H i) ++ r, ?_, fun hk => absurd hk (Nat.succ_ne_zero k), fun _ => ?_⟩
    · unfold runR
      rw [a6, bind_pure_some]
      dsimp only
      rw [b1, bind_pure_some, ← hr, hHi, List.drop_eq_getElem_cons (show i < xs.length by omega), List.take_succ_cons]
      rfl
    · rw [← hHi] at a4 a5
      by_cases hk : k = 0
      · subst hk
        rw [b2 rfl, List.append_nil]
        exact ⟨a5, rfl⟩
      · obtain ⟨c1, c2⟩ := b3 hk
        rw [a4, show i + 1 + k - 1 = i + (k + 1) - 1 by omega] at c1 c2
        exact ⟨by omega, by rw [c2]; exact UEnum.wordsTo_append _ _ _ a5 c1⟩

end EliasFano.SelEnum

/-! ### gamma codes -/

theorem glen_log2 (c : Nat) (x : Word) (h : x.toNat + c < 2^64) (h0 : x.toNat + c ≠ 0) : glen (BitVec.ofNat 64 c) x = Nat.log2 (x.toNat + c) := by
  have hc : (x + BitVec.ofNat 64 c).toNat = x.toNat + c := by
    rw [BitVec.toNat_add, BitVec.toNat_ofNat, Nat.mod_eq_of_lt (show c < 2^64 by omega), Nat.mod_eq_of_lt h]
  have hne : x + BitVec.ofNat 64 c ≠ 0 := fun e => h0 (by rw [← hc, e]; rfl)
  obtain ⟨_, h1, h2, h3⟩ := glen_spec _ x hne
  rw [← hc]
  refine ((Nat.log2_eq_iff (by rw [hc]; exact h0)).2 ⟨?_, ?_⟩).symm
  · exact Nat.ge_two_pow_of_testBit (by rw [BitVec.testBit_toNat]; exact h2)
  · exact Nat.lt_pow_two_of_testBit _ fun j hj => by rw [BitVec.testBit_toNat]; exact h3 j (by omega)

theorem goff_codeBits (c : Nat) (xs : List Word) (h : ∀ x ∈ xs, x.toNat + c < 2^64 ∧ x.toNat + c ≠ 0) (i k : Nat) :
    goff (BitVec.ofNat 64 c) xs (i + k) = goff (BitVec.ofNat 64 c) xs i + codeBits c (xs.map BitVec.toNat) i k := by
  unfold goff codeBits
  rw [List.take_add, List.flatMap_append, List.length_append, ← List.map_drop, ← List.map_take, List.map_map]
  congr 1
  rw [List.length_flatMap]
  congr 1
  apply List.map_congr_left
  intro x hx
  have := h x (List.mem_of_mem_drop (List.mem_of_mem_take hx))
  rw [gcode_length]
  exact glen_log2 c x this.1 this.2

theorem goff_mono (c : Word) (xs : List Word) (i k : Nat) : goff c xs i ≤ goff c xs (i + k) := by
  unfold goff
  rw [List.take_add, List.flatMap_append, List.length_append]
  omega

namespace GammaVector
variable {v : GammaVec} {xs : List Word}

theorem enumNewR_eq (i : Nat) (e : GammaEnum) (u : UEnum) (h : enumNew v i = some e) (hu : e.high = some u) :
    enumNewR v i = some (e, [u.position / 64]) ∧ u.position = e.pos + 1 ∧ e.low.avail = 0 := by
  unfold enumNew at h
  unfold enumNewR
  obtain ⟨s, h1, h⟩ := Option.bind_eq_some_iff.1 h
  rw [h1, bind_pure_some]
  by_cases c : i < s
  · simp only [if_pos c] at h ⊢
    obtain ⟨p, h2, h⟩ := Option.bind_eq_some_iff.1 h
    obtain ⟨u1, h3, h⟩ := Option.bind_eq_some_iff.1 h
    obtain ⟨o, h4, h⟩ := Option.bind_eq_some_iff.1 h
    cases h
    cases hu
    have hp : u.position = p + 1 := by
      unfold UEnum.new at h3
      obtain ⟨w, _, h3⟩ := Option.bind_eq_some_iff.1 h3
      obtain ⟨m, _, h3⟩ := Option.bind_eq_some_iff.1 h3
      cases h3
      rfl
    rw [h2, bind_pure_some, UEnum.newR_eq, h3, Option.map_some, bind_pure_some]
    dsimp only
    rw [h4, bind_pure_some, hp]
    exact ⟨rfl, rfl, rfl⟩
  · simp only [if_neg c] at h
    cases h
    cases hu

theorem enumNextR_of (e e' : GammaEnum) (x : Word) (h : enumNext v e = some (x, e')) :
    ∃ u u' f, e.high = some u ∧ e'.high = some u' ∧ u'.position = e'.pos ∧ u.position / 64 ≤ e'.pos / 64 ∧
      enumNextR v e = some (x, e', wordsTo u.position e'.pos, f) ∧
      (e.low.avail < e'.pos - e.pos - 1 → f = 1 ∧ e'.low.avail = wsub 64 (e'.pos - e.pos - 1)) ∧
      (e'.pos - e.pos - 1 ≤ e.low.avail → f = 0 ∧ e'.low.avail = e.low.avail - (e'.pos - e.pos - 1)) := by
  unfold enumNext at h
  obtain ⟨s, h1, h⟩ := Option.bind_eq_some_iff.1 h
  obtain ⟨_, h2, h⟩ := Option.bind_eq_some_iff.1 h
  obtain ⟨u, h3, h⟩ := Option.bind_eq_some_iff.1 h
  obtain ⟨⟨q, u'⟩, h4, h⟩ := Option.bind_eq_some_iff.1 h
  obtain ⟨d, h5, h⟩ := Option.bind_eq_some_iff.1 h
  obtain ⟨l, h6, h⟩ := Option.bind_eq_some_iff.1 h
  obtain ⟨⟨w, lo⟩, h7, h⟩ := Option.bind_eq_some_iff.1 h
  obtain ⟨one, h8, h⟩ := Option.bind_eq_some_iff.1 h
  obtain ⟨g3, g4⟩ := UEnum.nextR_of _ _ _ _ h4
  have g5 := UEnum.next_pos _ _ _ _ h4
  obtain ⟨f, g6, g7, g8⟩ := Enum.takeF_of _ _ _ _ _ h7
  have hl : q - e.pos - 1 = l := by
    unfold subU at h5 h6
    by_cases c : e.pos ≤ q
    · rw [if_pos c] at h5
      cases h5
      by_cases c : 1 ≤ q - e.pos
      · rw [if_pos c] at h6
        cases h6
        rfl
      · rw [if_neg c] at h6; cases h6
    · rw [if_neg c] at h5; cases h5
  cases h
  refine ⟨u, u', f, h3, rfl, g5, g4, ?_, by dsimp only; rw [hl]; exact g7, by dsimp only; rw [hl]; exact g8⟩
  unfold enumNextR
  rw [h1, bind_pure_some, h2, bind_pure_some, h3, bind_pure_some, g3, bind_pure_some]
  dsimp only
  rw [h5, bind_pure_some, h6, bind_pure_some, g6, bind_pure_some]
  dsimp only
  rw [h8, bind_pure_some]
  rfl

theorem enumRunR_ok (h : v.Good 1 (glen 1) xs) (k : Nat) : ∀ (i : Nat) (_ : i + k ≤ xs.length) (e : GammaEnum) (_ : e.Ok 1 (glen 1) xs i)
    (u : UEnum) (_ : e.high = some u) (f0 T0 : Nat) (_ : Enum.Fills f0 T0 e.low.avail),
    ∃ r f a, enumRunR v k e = some ((xs.drop i).take k, r, f) ∧ (k = 0 → r = []) ∧
      (k ≠ 0 → u.position / 64 ≤ onePos (0 :: xs.map (glen 1)) (i + k) / 64 ∧ r = wordsTo u.position (onePos (0 :: xs.map (glen 1)) (i + k))) ∧
      f ≤ k ∧ Enum.Fills (f0 + f) (T0 + (goff 1 xs (i + k) - goff 1 xs i)) a := by
  induction k with
  | zero =>
    intro i hi e _ u hu f0 T0 hf
    exact ⟨[], 0, _, by simp [enumRunR], fun _ => rfl, fun hk => absurd rfl hk, Nat.le_refl _, by simpa using hf⟩
  | succ k ih =>
    intro i hi e he u hu f0 T0 hf
    obtain ⟨e', e1, g1⟩ := enumNext_ok h i (by omega) e he
    obtain ⟨u0, u', f, a1, a2, a3, a4, a5, a6, a7⟩ := enumNextR_of e e' _ e1
    rw [hu] at a1
    cases a1
    have hs := GammaVec.Good.step (xs := xs) (hlen := glen 1) i (by omega)
    have hgo := goff_succ 1 xs i (by omega)
    have hlt := (glen_spec 1 xs[i] (h.nz _ (List.getElem_mem _))).2.1
    have hd : e'.pos - e.pos - 1 = glen 1 xs[i] := by rw [g1.pos, he.pos]; omega
    rw [hd] at a6 a7
    have hff := hf.take (by omega) a6 a7
    obtain ⟨r, fs, a, b1, b2, b3, b4, b5⟩ := ih (i + 1) (by omega) e' g1 u' a2 _ _ hff
    rw [g1.pos] at a3 a4 a5
    have hfk : f ≤ 1 := by
      by_cases c : e.low.avail < glen 1 xs[i]
      · rw [(a6 c).1]
      · rw [(a7 (by omega)).1]; omega
    have hmono := goff_mono 1 xs (i + 1) k
    refine ⟨wordsTo u.position (onePos (0 :: xs.map (glen 1)) (i + 1)) ++ r, f + fs, a, ?_, fun hk => absurd hk (Nat.succ_ne_zero k), fun _ => ?_, by omega, ?_⟩
    · unfold enumRunR
      rw [a5, bind_pure_some]
      dsimp only
      rw [b1, bind_pure_some, List.drop_eq_getElem_cons (show i < xs.length by omega), List.take_succ_cons]
      rfl
    · by_cases hk : k = 0
      · subst hk
        rw [b2 rfl, List.append_nil]
        exact ⟨a4, rfl⟩
      · obtain ⟨c1, c2⟩ := b3 hk
        rw [a3, show i + 1 + k = i + (k + 1) by omega] at c1 c2
        exact ⟨by omega, by rw [c2]; exact UEnum.wordsTo_append _ _ _ a4 c1⟩
    · rw [show f0 + (f + fs) = f0 + f + fs by omega, show i + (k + 1) = i + 1 + k by omega,
        show T0 + (goff 1 xs (i + 1 + k) - goff 1 xs i) = T0 + glen 1 xs[i] + (goff 1 xs (i + 1 + k) - goff 1 xs (i + 1)) by omega]
      exact b5

end GammaVector

namespace GammaBitVector
variable {v : GammaVec} {xs : List Word}

theorem enumNewR_eq (i : Nat) (e : GammaEnum) (u : UEnum) (h : enumNew v i = some e) (hu : e.high = some u) :
    enumNewR v i = some (e, [u.position / 64]) ∧ u.position = e.pos + 1 ∧ e.low.avail = 0 := by
  unfold enumNew at h
  unfold enumNewR
  obtain ⟨s, h1, h⟩ := Option.bind_eq_some_iff.1 h
  rw [h1, bind_pure_some]
  by_cases c : i < s
  · simp only [if_pos c] at h ⊢
    obtain ⟨p, h2, h⟩ := Option.bind_eq_some_iff.1 h
    obtain ⟨u1, h3, h⟩ := Option.bind_eq_some_iff.1 h
    cases h
    cases hu
    have hp : u.position = p + 1 := by
      unfold UEnum.new at h3
      obtain ⟨w, _, h3⟩ := Option.bind_eq_some_iff.1 h3
      obtain ⟨m, _, h3⟩ := Option.bind_eq_some_iff.1 h3
      cases h3
      rfl
    rw [h2, bind_pure_some, UEnum.newR_eq, h3, Option.map_some, bind_pure_some]
    dsimp only
    rw [hp]
    exact ⟨rfl, rfl, rfl⟩
  · simp only [if_neg c] at h
    cases h
    cases hu

theorem enumNextR_of (e e' : GammaEnum) (x : Word) (h : enumNext v e = some (x, e')) :
    ∃ u u' f, e.high = some u ∧ e'.high = some u' ∧ u'.position = e'.pos ∧ u.position / 64 ≤ e'.pos / 64 ∧
      enumNextR v e = some (x, e', wordsTo u.position e'.pos, f) ∧
      (e.low.avail < e'.pos - e.pos - 1 + 1 → f = 1 ∧ e'.low.avail = wsub 64 (e'.pos - e.pos - 1 + 1)) ∧
      (e'.pos - e.pos - 1 + 1 ≤ e.low.avail → f = 0 ∧ e'.low.avail = e.low.avail - (e'.pos - e.pos - 1 + 1)) := by
  unfold enumNext at h
  obtain ⟨s, h1, h⟩ := Option.bind_eq_some_iff.1 h
  obtain ⟨_, h2, h⟩ := Option.bind_eq_some_iff.1 h
  obtain ⟨u, h3, h⟩ := Option.bind_eq_some_iff.1 h
  obtain ⟨⟨q, u'⟩, h4, h⟩ := Option.bind_eq_some_iff.1 h
  obtain ⟨d, h5, h⟩ := Option.bind_eq_some_iff.1 h
  obtain ⟨l, h6, h⟩ := Option.bind_eq_some_iff.1 h
  obtain ⟨⟨w, lo⟩, h7, h⟩ := Option.bind_eq_some_iff.1 h
  obtain ⟨one, h8, h⟩ := Option.bind_eq_some_iff.1 h
  obtain ⟨g3, g4⟩ := UEnum.nextR_of _ _ _ _ h4
  have g5 := UEnum.next_pos _ _ _ _ h4
  obtain ⟨f, g6, g7, g8⟩ := Enum.takeF_of _ _ _ _ _ h7
  have hl : q - e.pos - 1 = l := by
    unfold subU at h5 h6
    by_cases c : e.pos ≤ q
    · rw [if_pos c] at h5
      cases h5
      by_cases c : 1 ≤ q - e.pos
      · rw [if_pos c] at h6
        cases h6
        rfl
      · rw [if_neg c] at h6; cases h6
    · rw [if_neg c] at h5; cases h5
  cases h
  refine ⟨u, u', f, h3, rfl, g5, g4, ?_, by dsimp only; rw [hl]; exact g7, by dsimp only; rw [hl]; exact g8⟩
  unfold enumNextR
  rw [h1, bind_pure_some, h2, bind_pure_some, h3, bind_pure_some, g3, bind_pure_some]
  dsimp only
  rw [h5, bind_pure_some, h6, bind_pure_some, g6, bind_pure_some]
  dsimp only
  rw [h8, bind_pure_some]
  rfl

theorem enumRunR_ok (h : v.Good 2 hlen xs) (hp : ∀ x ∈ xs, 1 ≤ glen 2 x) (k : Nat) : ∀ (i : Nat) (_ : i + k ≤ xs.length) (e : GammaEnum) (_ : e.Ok 2 hlen xs i)
    (u : UEnum) (_ : e.high = some u) (f0 T0 : Nat) (_ : Enum.Fills f0 T0 e.low.avail),
    ∃ r f a, enumRunR v k e = some ((xs.drop i).take k, r, f) ∧ (k = 0 → r = []) ∧
      (k ≠ 0 → u.position / 64 ≤ onePos (0 :: xs.map hlen) (i + k) / 64 ∧ r = wordsTo u.position (onePos (0 :: xs.map hlen) (i + k))) ∧
      f ≤ k ∧ Enum.Fills (f0 + f) (T0 + (goff 2 xs (i + k) - goff 2 xs i)) a := by
  induction k with
  | zero =>
    intro i hi e _ u hu f0 T0 hf
    exact ⟨[], 0, _, by simp [enumRunR], fun _ => rfl, fun hk => absurd rfl hk, Nat.le_refl _, by simpa using hf⟩
  | succ k ih =>
    intro i hi e he u hu f0 T0 hf
    obtain ⟨e', e1, g1⟩ := enumNext_ok h hp i (by omega) e he
    obtain ⟨u0, u', f, a1, a2, a3, a4, a5, a6, a7⟩ := enumNextR_of e e' _ e1
    rw [hu] at a1
    cases a1
    have hs := GammaVec.Good.step (xs := xs) (hlen := hlen) i (by omega)
    have hs' : hlen xs[i] + 1 = glen 2 xs[i] := by have := hp xs[i] (List.getElem_mem _); unfold hlen; omega
    have hgo := goff_succ 2 xs i (by omega)
    have hlt := (glen_spec 2 xs[i] (h.nz _ (List.getElem_mem _))).2.1
    have hd : e'.pos - e.pos - 1 + 1 = glen 2 xs[i] := by rw [g1.pos, he.pos]; omega
    rw [hd] at a6 a7
    have hff := hf.take (by omega) a6 a7
    obtain ⟨r, fs, a, b1, b2, b3, b4, b5⟩ := ih (i + 1) (by omega) e' g1 u' a2 _ _ hff
    rw [g1.pos] at a3 a4 a5
    have hfk : f ≤ 1 := by
      by_cases c : e.low.avail < glen 2 xs[i]
      · rw [(a6 c).1]
      · rw [(a7 (by omega)).1]; omega
    have hmono := goff_mono 2 xs (i + 1) k
    refine ⟨wordsTo u.position (onePos (0 :: xs.map hlen) (i + 1)) ++ r, f + fs, a, ?_, fun hk => absurd hk (Nat.succ_ne_zero k), fun _ => ?_, by omega, ?_⟩
    · unfold enumRunR
      rw [a5, bind_pure_some]
      dsimp only
      rw [b1, bind_pure_some, List.drop_eq_getElem_cons (show i < xs.length by omega), List.take_succ_cons]
      rfl
    · by_cases hk : k = 0
      · subst hk
        rw [b2 rfl, List.append_nil]
        exact ⟨a4, rfl⟩
      · obtain ⟨c1, c2⟩ := b3 hk
        rw [a3, show i + 1 + k = i + (k + 1) by omega] at c1 c2
        exact ⟨by omega, by rw [c2]; exact UEnum.wordsTo_append _ _ _ a4 c1⟩
    · rw [show f0 + (f + fs) = f0 + f + fs by omega, show i + (k + 1) = i + 1 + k by omega,
        show T0 + (goff 2 xs (i + 1 + k) - goff 2 xs i) = T0 + glen 2 xs[i] + (goff 2 xs (i + 1 + k) - goff 2 xs (i + 1)) by omega]
      exact b5

end GammaBitVector
end Succinct
