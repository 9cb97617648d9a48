import Verif.Model.Reads
import Verif.Spec.Reads
import Verif.Props.Enumerator

/-! # C96: the words the enumerators read -/
namespace Succinct
open Broadword Spec

private theorem bind_pure_some {α β : Type} (x : α) (f : α → Option β) : (some x >>= f) = f x := rfl

namespace UEnum
variable (bits : List Word)

theorem wordsTo_step (p q : Nat) (h : (p + 64) / 64 ≤ q / 64) : (p + 64) / 64 :: wordsTo (p + 64) q = wordsTo p q := by
  unfold wordsTo
  have e : (p + 64) / 64 = p / 64 + 1 := by omega
  rw [e] at h ⊢
  rw [show q / 64 - p / 64 = (q / 64 - (p / 64 + 1)) + 1 by omega, List.range'_succ]

theorem wordsTo_append (p q r : Nat) (h1 : p / 64 ≤ q / 64) (h2 : q / 64 ≤ r / 64) : wordsTo p q ++ wordsTo q r = wordsTo p r := by
  unfold wordsTo
  rw [show q / 64 + 1 = p / 64 + 1 + 1 * (q / 64 - p / 64) by omega, List.range'_append]
  congr 1
  omega

theorem nextLoopR_spec (fuel : Nat) : ∀ (position : Nat) (buf : Word),
    (nextLoopR bits fuel position buf).map (fun r => (r.1, r.2.1, r.2.2.1)) = nextLoop bits fuel position buf ∧
    ∀ p b r t, nextLoopR bits fuel position buf = some (p, b, r, t) → r < 64 ∧ position / 64 ≤ p / 64 ∧ t = wordsTo position p := by
  induction fuel with
  | zero =>
    intro position buf
    unfold nextLoopR nextLoop
    cases h : lsb buf with
    | none => exact ⟨rfl, fun _ _ _ _ h => by cases h⟩
    | some r =>
      refine ⟨rfl, fun p b r' t hh => ?_⟩
      cases hh
      exact ⟨((lsb_some buf r).1 h).1, Nat.le_refl _, by simp [wordsTo]⟩
  | succ fuel ih =>
    intro position buf
    unfold nextLoopR nextLoop
    cases h : lsb buf with
    | some r =>
      refine ⟨rfl, fun p b r' t hh => ?_⟩
      cases hh
      exact ⟨((lsb_some buf r).1 h).1, Nat.le_refl _, by simp [wordsTo]⟩
    | none =>
      simp only []
      cases hw : rd bits ((position + 64) / 64) with
      | none => exact ⟨rfl, fun _ _ _ _ h => by cases h⟩
      | some w =>
        obtain ⟨h1, h2⟩ := ih (position + 64) w
        rw [bind_pure_some, bind_pure_some, ← h1]
        cases hr : nextLoopR bits fuel (position + 64) w with
        | none => exact ⟨rfl, fun _ _ _ _ h => by cases h⟩
        | some x =>
          obtain ⟨p, b, r, t⟩ := x
          refine ⟨rfl, fun p' b' r' t' hh => ?_⟩
          cases hh
          obtain ⟨h3, h4, h5⟩ := h2 _ _ _ _ hr
          exact ⟨h3, by omega, by rw [h5, wordsTo_step _ _ h4]⟩

theorem skipLoopR_spec (neg : Bool) (k fuel : Nat) : ∀ (position skipped : Nat) (buf : Word), skipped ≤ k →
    (skipLoopR neg bits k fuel position skipped buf).map (fun r => (r.1, r.2.1, r.2.2.1)) = skipLoop neg bits k fuel position skipped buf ∧
    ∀ p s b t, skipLoopR neg bits k fuel position skipped buf = some (p, s, b, t) →
      k < s + popcount b ∧ s ≤ k ∧ position / 64 ≤ p / 64 ∧ t = wordsTo position p := by
  induction fuel with
  | zero =>
    intro position skipped buf hs
    unfold skipLoopR skipLoop
    by_cases hc : skipped + popcount buf ≤ k
    · simp only [if_pos hc]
      exact ⟨rfl, fun _ _ _ _ h => by cases h⟩
    · simp only [if_neg hc]
      refine ⟨rfl, fun p s b t hh => ?_⟩
      cases hh
      exact ⟨by omega, hs, Nat.le_refl _, by simp [wordsTo]⟩
  | succ fuel ih =>
    intro position skipped buf hs
    unfold skipLoopR skipLoop
    by_cases hc : skipped + popcount buf ≤ k
    · simp only [if_pos hc]
      cases hw : rd bits ((position + 64) / 64) with
      | none => exact ⟨rfl, fun _ _ _ _ h => by cases h⟩
      | some w =>
        obtain ⟨h1, h2⟩ := ih (position + 64) (skipped + popcount buf) (if neg then ~~~w else w) hc
        rw [bind_pure_some, bind_pure_some, ← h1]
        cases hr : skipLoopR neg bits k fuel (position + 64) (skipped + popcount buf) (if neg then ~~~w else w) with
        | none => exact ⟨rfl, fun _ _ _ _ h => by cases h⟩
        | some x =>
          obtain ⟨p, s, b, t⟩ := x
          refine ⟨rfl, fun p' s' b' t' hh => ?_⟩
          cases hh
          obtain ⟨h3, h4, h5, h6⟩ := h2 _ _ _ _ hr
          exact ⟨h3, h4, by omega, by rw [h6, wordsTo_step _ _ h5]⟩
    · simp only [if_neg hc]
      refine ⟨rfl, fun p s b t hh => ?_⟩
      cases hh
      exact ⟨by omega, hs, Nat.le_refl _, by simp [wordsTo]⟩

/-- where a call gets to: the position of the bit `skip_no_move` reports, or `position()` after the others -/
def reached : UnaryOp → Option Nat → UEnum → Nat
  | .skipNoMove _, o, _ => o.getD 0
  | _, _, e => e.position

theorem skip_end (b : Word) (k s : Nat) (h1 : k < s + popcount b) (h2 : s ≤ k) :
    b ≠ 0 ∧ ∃ i, selectInWord b (k - s) = some i ∧ i < 64 := by
  rw [popcount_eq] at h1
  obtain ⟨i, h3, h4, h5, _⟩ := selectInWord_spec b (k - s) (by omega)
  refine ⟨fun h => ?_, i, h3, h4⟩
  rw [h] at h5
  simp at h5

theorem wordsTo_reach (p q r : Nat) (hr : r < 64) : wordsTo p (64 * (q / 64) + r) = wordsTo p q := by
  unfold wordsTo
  rw [show (64 * (q / 64) + r) / 64 = q / 64 by omega]

theorem next_R (e : UEnum) : (nextR bits e).map (fun r => (r.1, r.2.1)) = next bits e ∧
    ∀ q e' t, nextR bits e = some (q, e', t) → e.position / 64 ≤ e'.position / 64 ∧ t = wordsTo e.position e'.position := by
  unfold nextR next
  obtain ⟨h1, h2⟩ := nextLoopR_spec bits bits.length e.position e.buf
  rw [← h1]
  cases hr : nextLoopR bits bits.length e.position e.buf with
  | none => exact ⟨rfl, fun _ _ _ h => by cases h⟩
  | some x =>
    obtain ⟨p, b, r, t⟩ := x
    refine ⟨rfl, fun q e' t' hh => ?_⟩
    cases hh
    obtain ⟨h3, h4, h5⟩ := h2 _ _ _ _ hr
    exact ⟨by simp only []; omega, by rw [h5]; exact (wordsTo_reach _ _ _ h3).symm⟩

theorem skip_R (e : UEnum) (k : Nat) : (skipR bits e k).map (·.1) = skip bits e k ∧
    ∀ e' t, skipR bits e k = some (e', t) → e.position / 64 ≤ e'.position / 64 ∧ t = wordsTo e.position e'.position := by
  unfold skipR skip
  obtain ⟨h1, h2⟩ := skipLoopR_spec bits false k bits.length e.position 0 e.buf (Nat.zero_le _)
  rw [← h1]
  generalize skipLoopR false bits k bits.length e.position 0 e.buf = x at h2
  cases x with
  | none => exact ⟨rfl, fun _ _ h => by cases h⟩
  | some x =>
    obtain ⟨p, s, b, t⟩ := x
    obtain ⟨h3, h4, h5, h6⟩ := h2 _ _ _ _ rfl
    obtain ⟨g1, i, g3, g4⟩ := skip_end b k s h3 h4
    simp only [Option.map_some, Option.bind_eq_bind, Option.bind_some]
    rw [assertP_eq _ g1, Option.bind_some, Option.bind_some, subU_eq _ _ h4, Option.bind_some, Option.bind_some, g3, Option.bind_some, Option.bind_some,
      shl_eq _ _ g4, Option.bind_some, Option.bind_some]
    refine ⟨rfl, fun e' t' hh => ?_⟩
    cases hh
    exact ⟨by simp only []; omega, by rw [h6]; exact (wordsTo_reach _ _ _ g4).symm⟩

theorem skipNoMove_R (e : UEnum) (k : Nat) : (skipNoMoveR bits e k).map (·.1) = skipNoMove bits e k ∧
    ∀ q t, skipNoMoveR bits e k = some (q, t) → e.position / 64 ≤ q / 64 ∧ t = wordsTo e.position q := by
  unfold skipNoMoveR skipNoMove
  obtain ⟨h1, h2⟩ := skipLoopR_spec bits false k bits.length e.position 0 e.buf (Nat.zero_le _)
  rw [← h1]
  generalize skipLoopR false bits k bits.length e.position 0 e.buf = x at h2
  cases x with
  | none => exact ⟨rfl, fun _ _ h => by cases h⟩
  | some x =>
    obtain ⟨p, s, b, t⟩ := x
    obtain ⟨h3, h4, h5, h6⟩ := h2 _ _ _ _ rfl
    obtain ⟨g1, i, g3, g4⟩ := skip_end b k s h3 h4
    simp only [Option.map_some, Option.bind_eq_bind, Option.bind_some]
    rw [assertP_eq _ g1, Option.bind_some, Option.bind_some, subU_eq _ _ h4, Option.bind_some, Option.bind_some, g3, Option.bind_some, Option.bind_some]
    refine ⟨rfl, fun q t' hh => ?_⟩
    cases hh
    exact ⟨by omega, by rw [h6]; exact (wordsTo_reach _ _ _ g4).symm⟩

theorem skip0_R (e : UEnum) (k : Nat) : (skip0R bits e k).map (·.1) = skip0 bits e k ∧
    ∀ e' t, skip0R bits e k = some (e', t) → e.position / 64 ≤ e'.position / 64 ∧ t = wordsTo e.position e'.position := by
  unfold skip0R skip0
  have hm0 : shl (BitVec.allOnes 64) (e.position % 64) = some (BitVec.allOnes 64 <<< (e.position % 64)) := if_pos (Nat.mod_lt _ (by decide))
  simp only [hm0, bind_pure_some]
  obtain ⟨h1, h2⟩ := skipLoopR_spec bits true k bits.length e.position 0 (~~~e.buf &&& (BitVec.allOnes 64 <<< (e.position % 64))) (Nat.zero_le _)
  rw [← h1]
  generalize skipLoopR true bits k bits.length e.position 0 _ = x at h2
  cases x with
  | none => exact ⟨rfl, fun _ _ h => by cases h⟩
  | some x =>
    obtain ⟨p, s, b, t⟩ := x
    obtain ⟨h3, h4, h5, h6⟩ := h2 _ _ _ _ rfl
    obtain ⟨g1, i, g3, g4⟩ := skip_end b k s h3 h4
    simp only [Option.map_some, Option.bind_eq_bind, Option.bind_some]
    rw [assertP_eq _ g1, Option.bind_some, Option.bind_some, subU_eq _ _ h4, Option.bind_some, Option.bind_some, g3, Option.bind_some, Option.bind_some,
      shl_eq _ _ g4, Option.bind_some, Option.bind_some]
    refine ⟨rfl, fun e' t' hh => ?_⟩
    cases hh
    exact ⟨by simp only []; omega, by rw [h6]; exact (wordsTo_reach _ _ _ g4).symm⟩

theorem stepR_spec (e : UEnum) (op : UnaryOp) :
    (stepR bits e op).map (fun r => (r.1, r.2.1)) = step bits e op ∧
    ∀ o e' t, stepR bits e op = some (o, e', t) → e.position / 64 ≤ reached op o e' / 64 ∧ t = wordsTo e.position (reached op o e') ∧
      ((∃ k, op = .skipNoMove k) → e' = e) := by
  cases op with
  | next =>
    obtain ⟨h1, h2⟩ := next_R bits e
    simp only [stepR, step, ← h1]
    cases hr : nextR bits e with
    | none => exact ⟨rfl, fun _ _ _ h => by cases h⟩
    | some x =>
      obtain ⟨q, e1, t⟩ := x
      refine ⟨rfl, fun o e' t' hh => ?_⟩
      cases hh
      obtain ⟨h3, h4⟩ := h2 _ _ _ hr
      exact ⟨h3, h4, fun ⟨k, h⟩ => by cases h⟩
  | skip k =>
    obtain ⟨h1, h2⟩ := skip_R bits e k
    simp only [stepR, step, ← h1]
    cases hr : skipR bits e k with
    | none => exact ⟨rfl, fun _ _ _ h => by cases h⟩
    | some x =>
      obtain ⟨e1, t⟩ := x
      refine ⟨rfl, fun o e' t' hh => ?_⟩
      cases hh
      obtain ⟨h3, h4⟩ := h2 _ _ hr
      exact ⟨h3, h4, fun ⟨k, h⟩ => by cases h⟩
  | skipNoMove k =>
    obtain ⟨h1, h2⟩ := skipNoMove_R bits e k
    simp only [stepR, step, ← h1]
    cases hr : skipNoMoveR bits e k with
    | none => exact ⟨rfl, fun _ _ _ h => by cases h⟩
    | some x =>
      obtain ⟨q, t⟩ := x
      refine ⟨rfl, fun o e' t' hh => ?_⟩
      cases hh
      obtain ⟨h3, h4⟩ := h2 _ _ hr
      exact ⟨h3, h4, fun _ => rfl⟩
  | skip0 k =>
    obtain ⟨h1, h2⟩ := skip0_R bits e k
    simp only [stepR, step, ← h1]
    cases hr : skip0R bits e k with
    | none => exact ⟨rfl, fun _ _ _ h => by cases h⟩
    | some x =>
      obtain ⟨e1, t⟩ := x
      refine ⟨rfl, fun o e' t' hh => ?_⟩
      cases hh
      obtain ⟨h3, h4⟩ := h2 _ _ hr
      exact ⟨h3, h4, fun ⟨k, h⟩ => by cases h⟩

theorem runR_spec (ops : List UnaryOp) : ∀ e : UEnum, runR bits e ops = (runPos bits e ops).map fun outs => (outs, unaryReads e.position ops outs) := by
  induction ops with
  | nil => exact fun e => rfl
  | cons op ops ih =>
    intro e
    obtain ⟨h1, h2⟩ := stepR_spec bits e op
    unfold runR runPos
    rw [← h1]
    cases hs : stepR bits e op with
    | none => rfl
    | some x =>
      obtain ⟨o, e', t⟩ := x
      obtain ⟨_, h4, _⟩ := h2 _ _ _ hs
      rw [Option.map_some, bind_pure_some, bind_pure_some]
      simp only [ih e']
      cases hr : runPos bits e' ops with
      | none => rfl
      | some outs =>
        simp only [Option.map_some, bind_pure_some]
        show some ((o, e'.position) :: outs, t :: unaryReads e'.position ops outs) = some ((o, e'.position) :: outs, _)
        rw [h4]
        cases op <;> rfl

/-- positions never go back, so that the words read follow each other -/
theorem reads_flatten (ops : List UnaryOp) (hk : ∀ k, UnaryOp.skipNoMove k ∉ ops) : ∀ (e : UEnum) (outs : List (Option Nat × Nat)), runPos bits e ops = some outs →
    e.position / 64 ≤ (outs.map Prod.snd).getLastD e.position / 64 ∧
    (unaryReads e.position ops outs).flatten = wordsTo e.position ((outs.map Prod.snd).getLastD e.position) := by
  induction ops with
  | nil =>
    intro e outs h
    cases h
    exact ⟨Nat.le_refl _, by simp [unaryReads, wordsTo]⟩
  | cons op ops ih =>
    intro e outs h
    obtain ⟨h1, h2⟩ := stepR_spec bits e op
    unfold runPos at h
    rw [← h1] at h
    cases hs : stepR bits e op with
    | none => rw [hs] at h; cases h
    | some x =>
      obtain ⟨o, e', t⟩ := x
      obtain ⟨h3, _, _⟩ := h2 _ _ _ hs
      rw [hs, Option.map_some, bind_pure_some] at h
      obtain ⟨os, h4, h5⟩ := Option.bind_eq_some_iff.1 h
      cases h5
      have hop : reached op o e' = e'.position := by
        cases op with
        | skipNoMove k => exact absurd (List.mem_cons_self ..) (hk k)
        | _ => rfl
      have hun : unaryReads e.position (op :: ops) ((o, e'.position) :: os) = wordsTo e.position e'.position :: unaryReads e'.position ops os := by
        cases op with
        | skipNoMove k => exact absurd (List.mem_cons_self ..) (hk k)
        | _ => rfl
      obtain ⟨g1, g2⟩ := ih (fun k hm => hk k (List.mem_cons_of_mem _ hm)) e' os h4
      rw [hop] at h3
      have hl : (((o, e'.position) :: os).map Prod.snd).getLastD e.position = (os.map Prod.snd).getLastD e'.position := by
        rw [List.map_cons, List.getLastD_cons]
      rw [hl, hun, List.flatten_cons, g2]
      exact ⟨by omega, wordsTo_append _ _ _ h3 g1⟩

end UEnum
namespace Enum
variable (v : BitVector)

theorem fillBuf_eq (e e' : Enum) (h : fillBuf v e = some e') : e'.pos = e.pos ∧ e'.avail = 64 := by
  unfold fillBuf at h
  obtain ⟨w, _, h2⟩ := Option.bind_eq_some_iff.1 h
  cases h2
  exact ⟨rfl, rfl⟩

theorem takeAvail_eq (e e' : Enum) (l : Nat) (w : Word) (h : takeAvail e l = some (w, e')) : e'.pos = e.pos + l ∧ e'.avail = wsub e.avail l := by
  unfold takeAvail at h
  by_cases hl : l ≠ 64
  · rw [if_pos hl] at h
    obtain ⟨_, _, h⟩ := Option.bind_eq_some_iff.1 h
    obtain ⟨_, _, h⟩ := Option.bind_eq_some_iff.1 h
    cases h
    exact ⟨rfl, rfl⟩
  · rw [if_neg hl] at h
    cases h
    exact ⟨rfl, rfl⟩

theorem nextF_spec (e : Enum) : (nextF v e).map (fun r => (r.1, r.2.1)) = next v e ∧
    ∀ b e' f, nextF v e = some (b, e', f) → e'.pos = e.pos + 1 ∧ (e.avail = 0 → f = 1 ∧ e'.avail = 63) ∧ (e.avail ≠ 0 → f = 0 ∧ e'.avail = e.avail - 1) := by
  have hs (w : Word) : shr w 1 = some (w >>> 1) := if_pos (by decide)
  unfold nextF next
  by_cases ha : e.avail = 0
  · rw [if_pos ha, if_pos ha]
    cases hf : fillBuf v e with
    | none => exact ⟨rfl, fun _ _ _ h => by cases h⟩
    | some e1 =>
      obtain ⟨h1, h2⟩ := fillBuf_eq v e e1 hf
      simp only [Option.map_some, bind_pure_some, hs]
      refine ⟨rfl, fun b e' f h => ?_⟩
      cases h
      exact ⟨by simp only [h1], fun _ => ⟨rfl, by simp only [h2]; decide⟩, fun h => absurd ha h⟩
  · rw [if_neg ha, if_neg ha]
    simp only [bind_pure_some, hs]
    refine ⟨rfl, fun b e' f h => ?_⟩
    cases h
    exact ⟨rfl, fun h => absurd h ha, fun _ => ⟨rfl, by simp only []; rw [wsub_eq _ _ (by omega)]⟩⟩

theorem takeF_spec (e : Enum) (l : Nat) : (takeF v e l).map (fun r => (r.1, r.2.1)) = take v e l ∧
    ∀ b e' f, takeF v e l = some (b, e', f) → e'.pos = e.pos + l ∧ (e.avail < l → f = 1 ∧ e'.avail = wsub 64 l) ∧ (l ≤ e.avail → f = 0 ∧ e'.avail = e.avail - l) := by
  unfold takeF take
  by_cases ha : e.avail < l
  · rw [if_pos ha, if_pos ha]
    cases hf : fillBuf v e with
    | none => exact ⟨rfl, fun _ _ _ h => by cases h⟩
    | some e1 =>
      obtain ⟨h1, h2⟩ := fillBuf_eq v e e1 hf
      simp only [Option.map_some, bind_pure_some]
      cases ht : takeAvail e1 l with
      | none => exact ⟨rfl, fun _ _ _ h => by cases h⟩
      | some x =>
        obtain ⟨w, e2⟩ := x
        obtain ⟨h3, h4⟩ := takeAvail_eq e1 e2 l w ht
        refine ⟨rfl, fun b e' f h => ?_⟩
        cases h
        exact ⟨by rw [h3, h1], fun _ => ⟨rfl, by rw [h4, h2]⟩, fun h => by omega⟩
  · rw [if_neg ha, if_neg ha]
    simp only [bind_pure_some]
    cases ht : takeAvail e l with
    | none => exact ⟨rfl, fun _ _ _ h => by cases h⟩
    | some x =>
      obtain ⟨w, e2⟩ := x
      obtain ⟨h3, h4⟩ := takeAvail_eq e e2 l w ht
      refine ⟨rfl, fun b e' f h => ?_⟩
      cases h
      exact ⟨h3, fun h => absurd h ha, fun hl => ⟨rfl, by rw [h4, wsub_eq _ _ hl]⟩⟩

theorem skipZerosLoopF_spec (fuel : Nat) : ∀ (e : Enum) (zs : Nat),
    (skipZerosLoopF v fuel e zs).map (fun r => (r.1, r.2.1)) = skipZerosLoop v fuel e zs ∧
    ∀ e' zs' f, skipZerosLoopF v fuel e zs = some (e', zs', f) → e.pos + 64 * f ≤ e'.pos + 64 ∧ e.pos ≤ e'.pos ∧ (e.avail = 64 → e.pos + 64 * f ≤ e'.pos) := by
  induction fuel with
  | zero =>
    intro e zs
    unfold skipZerosLoopF skipZerosLoop
    by_cases hb : e.buf = 0
    · rw [if_pos hb, if_pos hb]
      exact ⟨rfl, fun _ _ _ h => by cases h⟩
    · rw [if_neg hb, if_neg hb]
      refine ⟨rfl, fun _ _ _ h => ?_⟩
      cases h
      exact ⟨by omega, by omega, fun _ => by omega⟩
  | succ fuel ih =>
    intro e zs
    unfold skipZerosLoopF skipZerosLoop
    by_cases hb : e.buf = 0
    · rw [if_pos hb, if_pos hb]
      simp only []
      cases hf : fillBuf v ⟨e.pos + e.avail, e.buf, 0⟩ with
      | none => exact ⟨rfl, fun _ _ _ h => by cases h⟩
      | some e1 =>
        obtain ⟨h1, h2⟩ := fillBuf_eq v _ e1 hf
        simp only [] at h1
        obtain ⟨g1, g2⟩ := ih e1 (zs + e.avail)
        simp only [bind_pure_some, ← g1]
        cases hl : skipZerosLoopF v fuel e1 (zs + e.avail) with
        | none => exact ⟨rfl, fun _ _ _ h => by cases h⟩
        | some x =>
          obtain ⟨e2, z2, f2⟩ := x
          obtain ⟨k1, k2, k3⟩ := g2 _ _ _ hl
          have k3 := k3 h2
          refine ⟨rfl, fun _ _ _ h => ?_⟩
          cases h
          dsimp only
          exact ⟨by omega, by omega, fun _ => by omega⟩
    · rw [if_neg hb, if_neg hb]
      refine ⟨rfl, fun _ _ _ h => ?_⟩
      cases h
      exact ⟨by omega, by omega, fun _ => by omega⟩

theorem skipZerosF_spec (e : Enum) : (skipZerosF v e).map (fun r => (r.1, r.2.1)) = skipZeros v e ∧
    ∀ n e' f, skipZerosF v e = some (n, e', f) → e.pos + 64 * f ≤ e'.pos + 64 ∧ e.pos ≤ e'.pos := by
  unfold skipZerosF skipZeros
  obtain ⟨g1, g2⟩ := skipZerosLoopF_spec v (v.bits.length + 2) e 0
  rw [← g1]
  generalize skipZerosLoopF v (v.bits.length + 2) e 0 = x at g2
  cases x with
  | none => exact ⟨rfl, fun _ _ _ h => by cases h⟩
  | some x =>
    obtain ⟨e1, zs, f⟩ := x
    obtain ⟨k1, k2, _⟩ := g2 _ _ _ rfl
    simp only [Option.map_some, bind_pure_some]
    cases h1 : lsb e1.buf with
    | none => exact ⟨rfl, fun _ _ _ h => by cases h⟩
    | some l =>
      have hl := ((lsb_some e1.buf l).1 h1).1
      simp only [bind_pure_some, shr_eq _ _ hl, shr_eq _ _ (show 1 < 64 by decide)]
      refine ⟨rfl, fun _ _ _ h => ?_⟩
      cases h
      exact ⟨by simp only []; omega, by simp only []; omega⟩

theorem stepF_spec (e : Enum) (op : EnumOp) : (stepF v e op).map (fun r => (r.1, r.2.1)) = step v e op ∧
    ∀ o e' f, stepF v e op = some (o, e', f) → e.pos + 64 * f ≤ e'.pos + 64 ∧ e.pos ≤ e'.pos := by
  cases op with
  | next =>
    obtain ⟨h1, h2⟩ := nextF_spec v e
    simp only [stepF, step, ← h1]
    cases hr : nextF v e with
    | none => exact ⟨rfl, fun _ _ _ h => by cases h⟩
    | some x =>
      obtain ⟨b, e1, f⟩ := x
      obtain ⟨k1, k2, k3⟩ := h2 _ _ _ hr
      refine ⟨rfl, fun _ _ _ h => ?_⟩
      cases h
      by_cases ha : e.avail = 0
      · have := (k2 ha).1; dsimp only; omega
      · have := (k3 ha).1; dsimp only; omega
  | take n =>
    obtain ⟨h1, h2⟩ := takeF_spec v e n
    simp only [stepF, step, ← h1]
    cases hr : takeF v e n with
    | none => exact ⟨rfl, fun _ _ _ h => by cases h⟩
    | some x =>
      obtain ⟨b, e1, f⟩ := x
      obtain ⟨k1, k2, k3⟩ := h2 _ _ _ hr
      refine ⟨rfl, fun _ _ _ h => ?_⟩
      cases h
      by_cases ha : e.avail < n
      · have := (k2 ha).1; dsimp only; omega
      · have := (k3 (by omega)).1; dsimp only; omega
  | skipZeros =>
    obtain ⟨h1, h2⟩ := skipZerosF_spec v e
    simp only [stepF, step, ← h1]
    cases hr : skipZerosF v e with
    | none => exact ⟨rfl, fun _ _ _ h => by cases h⟩
    | some x =>
      obtain ⟨b, e1, f⟩ := x
      refine ⟨rfl, fun _ _ _ h => ?_⟩
      cases h
      exact h2 _ _ _ hr

theorem runF_spec (ops : List EnumOp) : ∀ e : Enum, (runF v e ops).map (·.1) = run v e ops ∧
    ∀ outs f, runF v e ops = some (outs, f) → e.pos + 64 * f ≤ (outs.map Prod.snd).getLastD e.pos + 64 * ops.length := by
  induction ops with
  | nil =>
    intro e
    refine ⟨rfl, fun _ _ h => ?_⟩
    cases h
    exact Nat.le_refl _
  | cons op ops ih =>
    intro e
    obtain ⟨h1, h2⟩ := stepF_spec v e op
    unfold runF run
    rw [← h1]
    cases hs : stepF v e op with
    | none => exact ⟨rfl, fun _ _ h => by cases h⟩
    | some x =>
      obtain ⟨o, e', f⟩ := x
      obtain ⟨h3, h4⟩ := h2 _ _ _ hs
      obtain ⟨g1, g2⟩ := ih e'
      simp only [Option.map_some, bind_pure_some, ← g1]
      cases hr : runF v e' ops with
      | none => exact ⟨rfl, fun _ _ h => by cases h⟩
      | some x =>
        obtain ⟨os, f'⟩ := x
        have g3 := g2 _ _ hr
        refine ⟨rfl, fun _ _ h => ?_⟩
        cases h
        rw [List.map_cons, List.getLastD_cons, List.length_cons]
        simp only []
        omega

/-- reads of the same length `w`: one call of `fill_buf` for `64 / w` of them -/
theorem runF_same (op : EnumOp) (w : Nat) (hw : 0 < w) (hw64 : w ≤ 64) (hop : op = .take w ∨ op = .next ∧ w = 1) (n : Nat) :
    ∀ e : Enum, ∀ outs f, runF v e (List.replicate n op) = some (outs, f) → f = (n - e.avail / w + (64 / w - 1)) / (64 / w) := by
  have hq : 0 < 64 / w := Nat.div_pos hw64 hw
  have one : ∀ e o e' f, stepF v e op = some (o, e', f) → (e.avail < w → f = 1 ∧ e'.avail = 64 - w) ∧ (w ≤ e.avail → f = 0 ∧ e'.avail = e.avail - w) := by
    intro e o e' f h
    rcases hop with rfl | ⟨rfl, rfl⟩
    · obtain ⟨x, h1, h2⟩ := Option.bind_eq_some_iff.1 h
      obtain ⟨b, e1, f1⟩ := x
      cases h2
      obtain ⟨_, k2, k3⟩ := (takeF_spec v e w).2 _ _ _ h1
      rw [wsub_eq _ _ hw64] at k2
      exact ⟨k2, k3⟩
    · obtain ⟨x, h1, h2⟩ := Option.bind_eq_some_iff.1 h
      obtain ⟨b, e1, f1⟩ := x
      cases h2
      obtain ⟨_, k2, k3⟩ := (nextF_spec v e).2 _ _ _ h1
      exact ⟨fun h => k2 (by omega), fun h => k3 (by omega)⟩
  induction n with
  | zero =>
    intro e outs f h
    cases h
    rw [Nat.zero_sub, Nat.zero_add, Nat.div_eq_of_lt (by omega)]
  | succ n ih =>
    intro e outs f h
    rw [List.replicate_succ] at h
    unfold runF at h
    obtain ⟨⟨o, e', f1⟩, h1, h⟩ := Option.bind_eq_some_iff.1 h
    obtain ⟨⟨os, f2⟩, h2, h⟩ := Option.bind_eq_some_iff.1 h
    cases h
    have h3 := ih _ _ _ h2
    obtain ⟨k1, k2⟩ := one _ _ _ _ h1
    by_cases ha : e.avail < w
    · obtain ⟨k3, k4⟩ := k1 ha
      have e1 : (64 - w) / w = 64 / w - 1 := by
        have := Nat.sub_mul_div 64 w 1
        rwa [Nat.mul_one] at this
      rw [k3, h3, k4, e1, Nat.div_eq_of_lt ha, Nat.sub_zero]
      generalize 64 / w = q at hq ⊢
      by_cases hn : n ≤ q - 1
      · rw [show n - (q - 1) = 0 by omega, Nat.zero_add, Nat.div_eq_of_lt (show q - 1 < q by omega), show n + 1 + (q - 1) = n + q by omega,
          Nat.add_div_right _ hq, Nat.div_eq_of_lt (by omega)]
      · rw [show n + 1 + (q - 1) = (n - (q - 1) + (q - 1)) + q by omega, Nat.add_div_right _ hq]
        omega
    · obtain ⟨k3, k4⟩ := k2 (by omega)
      have e1 : (e.avail - w) / w = e.avail / w - 1 := by
        have := Nat.sub_mul_div e.avail w 1
        rwa [Nat.mul_one] at this
      have : 0 < e.avail / w := Nat.div_pos (by omega) hw
      rw [k3, h3, k4, e1, Nat.zero_add, show n - (e.avail / w - 1) = n + 1 - e.avail / w by omega]

end Enum

/-- **C96**, `unary_enumerator`: beginning at position `p` it reads the word of `p`; each call of a history, whatever it answers, then reads exactly
the words behind the current one up to that of the bit it looks for. -/
theorem C96_unary (l : List Bool) (p : Nat) (hp : p < l.length) :
    ∃ e, UEnum.new (BitVector.ofRange l).bits p = some e ∧ UEnum.newR (BitVector.ofRange l).bits p = some (e, [p / 64]) ∧
      ∀ ops, UEnum.runR (BitVector.ofRange l).bits e ops = (UEnum.runPos (BitVector.ofRange l).bits e ops).map fun outs => (outs, unaryReads p ops outs) := by
  obtain ⟨e, k1, k2, k3⟩ := UEnum.new_good (BitVector.ofRange_rep l).repr p hp
  refine ⟨e, k1, ?_, fun ops => by rw [UEnum.runR_spec, k3]⟩
  unfold UEnum.new at k1
  unfold UEnum.newR
  obtain ⟨w, h1, k1⟩ := Option.bind_eq_some_iff.1 k1
  obtain ⟨m, h2, k1⟩ := Option.bind_eq_some_iff.1 k1
  cases k1
  rw [h1, bind_pure_some, h2]
  rfl

/-- **C96**, `unary_enumerator`: without `skip_no_move` no word is read twice: the words are read in order, each once, from that of the first position to that of
the last one. -/
theorem C96_unary_once (l : List Bool) (p : Nat) (hp : p < l.length) (ops : List UnaryOp) (hk : ∀ k, UnaryOp.skipNoMove k ∉ ops) :
    ∃ e, UEnum.newR (BitVector.ofRange l).bits p = some (e, [p / 64]) ∧ ∀ outs ts, UEnum.runR (BitVector.ofRange l).bits e ops = some (outs, ts) →
      p / 64 :: ts.flatten = List.range' (p / 64) ((outs.map Prod.snd).getLastD p / 64 - p / 64 + 1) := by
  obtain ⟨e, k1, k2, k3⟩ := C96_unary l p hp
  refine ⟨e, k2, fun outs ts h => ?_⟩
  rw [k3] at h
  obtain ⟨os, h1, h2⟩ := Option.map_eq_some_iff.1 h
  cases h2
  have hpos : e.position = p := by
    obtain ⟨e1, g1, _, g3⟩ := UEnum.new_good (BitVector.ofRange_rep l).repr p hp
    rw [g1] at k1
    cases k1
    exact g3
  obtain ⟨_, h3⟩ := UEnum.reads_flatten _ ops hk e _ h1
  rw [hpos] at h3
  rw [h3, List.range'_succ]
  rfl

/-- **C96**, `enumerator`: for the histories of C07, `fill_buf` is called at most once a call and once for 64 bits passed. -/
theorem C96_stream (l : List Bool) (p : Nat) (ops : List EnumOp) (outs : List (EnumOut × Nat)) (h : StreamRun l p ops outs) (hs : NoStale false ops outs) :
    ∃ f, Enum.runF (BitVector.ofRange l) (Enum.new p) ops = some (outs, f) ∧ f ≤ ops.length + ((outs.map Prod.snd).getLastD p - p) / 64 := by
  have h1 := C07_enumerator_partial l p ops outs h hs
  obtain ⟨h2, h3⟩ := Enum.runF_spec (BitVector.ofRange l) ops (Enum.new p)
  rw [h1] at h2
  obtain ⟨⟨os, f⟩, h4, h5⟩ := Option.map_eq_some_iff.1 h2
  cases h5
  refine ⟨f, h4, ?_⟩
  have h6 : p + 64 * f ≤ _ := h3 _ _ h4
  have : (Enum.new p).pos = p := rfl
  rw [this] at h6
  dsimp only
  omega

/-- **C96**, `enumerator`: `n` reads of `w` bits each take one call of `fill_buf` for `64 / w` reads (rounded up), `n` calls of `next` one for 64. -/
theorem C96_stream_same (l : List Bool) (p n w : Nat) (hw : 0 < w) (hw64 : w ≤ 64) (hl : p + n * w ≤ l.length) :
    (∃ outs, Enum.runF (BitVector.ofRange l) (Enum.new p) (List.replicate n (.take w)) = some (outs, (n + (64 / w - 1)) / (64 / w))) ∧
    (w = 1 → ∃ outs, Enum.runF (BitVector.ofRange l) (Enum.new p) (List.replicate n .next) = some (outs, (n + 63) / 64)) := by
  have runs (op : EnumOp) (hop : op = .take w ∨ op = .next ∧ w = 1) : ∀ n p, p + n * w ≤ l.length → ∃ outs, StreamRun l p (List.replicate n op) outs ∧
      ∀ b, NoStale b (List.replicate n op) outs := by
    intro n
    induction n with
    | zero => exact fun p _ => ⟨[], .nil, fun b => by simp [NoStale]⟩
    | succ n ih =>
      intro p hp
      rw [Nat.succ_mul] at hp
      obtain ⟨os, h1, h2⟩ := ih (p + w) (by omega)
      rw [List.replicate_succ]
      rcases hop with rfl | ⟨rfl, rfl⟩
      · exact ⟨_, .cons (.take hw64 (by omega)) h1, fun b => by unfold NoStale; exact h2 _⟩
      · exact ⟨_, .cons (.next (List.getElem?_eq_getElem (show p < l.length by omega))) h1, fun b => by unfold NoStale; exact h2 _⟩
  have main (op : EnumOp) (hop : op = .take w ∨ op = .next ∧ w = 1) :
      ∃ outs, Enum.runF (BitVector.ofRange l) (Enum.new p) (List.replicate n op) = some (outs, (n + (64 / w - 1)) / (64 / w)) := by
    obtain ⟨outs, h1, h2⟩ := runs op hop n p hl
    obtain ⟨f, h3, _⟩ := C96_stream l p _ outs h1 (h2 _)
    have h4 := Enum.runF_same (BitVector.ofRange l) op w hw hw64 hop n _ _ _ h3
    have : (Enum.new p).avail = 0 := rfl
    rw [this, Nat.zero_div, Nat.sub_zero] at h4
    exact ⟨outs, by rw [h3, h4]⟩
  exact ⟨main _ (Or.inl rfl), fun h => by have := main .next (Or.inr ⟨rfl, h⟩); rw [h] at this; exact this⟩

/-- ones at 3, 70 and 200 of 256 bits -/
def readsBits : List Bool := (List.range 256).map fun i => i == 3 || i == 70 || i == 200

/-- `skip_no_move` looks ahead to word 3; the words 1, 2 and 3 are read again when the enumerator gets there -/
example : (UEnum.newR (BitVector.ofRange readsBits).bits 0).bind (fun r => UEnum.runR (BitVector.ofRange readsBits).bits r.1 [.skipNoMove 2, .next, .next, .next]) =
    some ([(some 200, 0), (some 3, 3), (some 70, 70), (some 200, 200)], [[1, 2, 3], [], [1], [2, 3]]) := by decide +kernel

example : unaryReads 0 [.skipNoMove 2, .next, .next, .next] [(some 200, 0), (some 3, 3), (some 70, 70), (some 200, 200)] = [[1, 2, 3], [], [1], [2, 3]] := by decide

/-- three calls of `skip_zeros`, four of `fill_buf` (`3 + 201 / 64` at most) -/
example : (Enum.runF (BitVector.ofRange readsBits) (Enum.new 0) [.skipZeros, .skipZeros, .skipZeros]).map (·.2) = some 4 := by decide +kernel

/-- five reads of 30 bits: two for each call of `fill_buf` -/
example : (Enum.runF (BitVector.ofRange readsBits) (Enum.new 0) (List.replicate 5 (.take 30))).map (·.2) = some 3 := by decide +kernel

end Succinct
