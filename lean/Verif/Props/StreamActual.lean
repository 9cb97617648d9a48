import Verif.Lemmas.StreamActual

/-!
# C78: what `bit_vector::enumerator` does for every history of calls

The code is that of `Verif/Model/MachineEnum.lean`, with wrapping 64-bit words: after the pattern for which C07 fails the counter `m_avail`
is below zero.
-/
namespace Succinct
open Spec
open Machine (W)

/-- **C78.** On a vector built by a history, every history of calls gives the answers and positions of `StreamActRun`, and the code fails an
assertion or shifts too far exactly if there are none. -/
theorem C78_enumerator_actual (pr : Prog) (l : List Bool) (h : pr.spec = some l) (hr : pr.ReserveAligned) (hl : l.length ≤ 2^63) :
    ∃ bv, Machine.history pr = some bv ∧ ∀ (p : Word) (ops : List Machine.EnumCall) (outs : List (EnumOut × Nat)), ops.length ≤ 2^56 →
      ((Machine.Enum.run bv (Machine.Enum.new p) ops).map (·.map fun x => (x.1.out, x.2.toNat)) = some outs ↔
        StreamActRun l ⟨p.toNat, p.toNat, p.toNat⟩ (ops.map (·.op)) outs) := by
  have hf := Machine.BitVector.Fits.of_rep (BitVector.ofRange_rep l) hl
  refine ⟨_, Machine.history_eq pr l h hr hl, fun p ops outs hlen => ?_⟩
  have := Machine.Enum.new_st (l := l) p.toNat ops.length p.isLt
  rw [Machine.W_of] at this
  exact Machine.Enum.run_act (BitVector.ofRange_rep l) hf hl ops _ _ hlen this outs

/-- `n` calls of `next` with the position beyond the buffered interval: no end is noticed -/
theorem act_nexts (l : List Bool) (n : Nat) : ∀ (s : StreamBuf), s.c < s.pos →
    ∃ outs, StreamActRun l s (List.replicate n .next) outs ∧ outs.map (·.2) = (List.range n).map (s.pos + 1 + ·) ∧
      ∀ i, s.c ≤ s.b + i → ∀ o, outs[i]? = some o → o.1 = .bit false := by
  induction n with
  | zero => intro s _; exact ⟨[], .nil, rfl, by simp⟩
  | succ n ih =>
    intro s hs
    obtain ⟨outs, h1, h2, h3⟩ := ih ⟨s.pos + 1, s.b + 1, s.c⟩ (by show s.c < s.pos + 1; omega)
    refine ⟨_, .cons (.next (.keep (by omega))) h1, ?_, ?_⟩
    · rw [List.map_cons, h2, List.range_succ_eq_map, List.map_cons, List.map_map]
      congr 1
      apply List.map_congr_left
      intro i _
      show s.pos + 1 + 1 + i = s.pos + 1 + (i + 1)
      omega
    · intro i hi o ho
      cases i with
      | zero =>
        have ho : _ = o := Option.some.inj ho
        rw [← ho]
        have : s.bits l = [] := by
          unfold StreamBuf.bits
          apply List.drop_eq_nil_of_le
          rw [List.length_take]; omega
        rw [this]; rfl
      | succ i => exact h3 i (by show s.c ≤ s.b + 1 + i; omega) o ho

/-- **C78**, consequence: after a `take(64)` that returned a one and a `skip_zeros`, `next` can be called any number of times, also far
beyond the end of the vector; once the buffer is used up it returns zeros, whatever the vector holds there. -/
theorem C78_runs_past_end (pr : Prog) (l : List Bool) (h : pr.spec = some l) (hr : pr.ReserveAligned) (hl : l.length ≤ 2^63) (p : Word) (t : Nat)
    (hp : p.toNat < l.length) (ht : IsSucc true l p.toNat t) (h64 : t < p.toNat + 64) (n : Nat) (hn : n < 2^55) :
    ∃ bv r, Machine.history pr = some bv ∧
      Machine.Enum.run bv (Machine.Enum.new p) (.take 64 :: .skipZeros :: List.replicate n .next) = some r ∧
      ((r.map (·.2.toNat)).drop 2 = (List.range n).map (t + 66 + ·)) ∧
      ∀ i, p.toNat + 63 ≤ t + i → ∀ o, r[i + 2]? = some o → o.1 = .bit false := by
  obtain ⟨bv, hb, hrun⟩ := C78_enumerator_actual pr l h hr hl
  have ht1 := ht.1
  obtain ⟨outs, h1, h2, h3⟩ := act_nexts l n ⟨p.toNat + 64 + (t - p.toNat + 1), t + 1, p.toNat + 64⟩ (by dsimp only; omega)
  have hact := (hrun p (.take 64 :: .skipZeros :: List.replicate n .next) _ (by simp; omega)).2 (by
    rw [List.map_cons, List.map_cons, List.map_replicate]
    exact .cons (.take (by decide) (.fill (Nat.le_refl _) (by show p.toNat < p.toNat + 64; omega) hp))
      (.cons (.skipIn (s := ⟨p.toNat + 64, p.toNat, p.toNat + 64⟩) ht h64) h1))
  obtain ⟨r, hr1, hr2⟩ := Option.map_eq_some_iff.1 hact
  refine ⟨bv, r, hb, hr1, ?_, ?_⟩
  · have : r.map (·.2.toNat) = (r.map fun x => (x.1.out, x.2.toNat)).map (·.2) := by rw [List.map_map]; rfl
    rw [this, hr2, List.map_cons, List.map_cons, List.drop_succ_cons, List.drop_succ_cons, List.drop_zero, h2]
    apply List.map_congr_left
    intro i _
    dsimp only; omega
  · intro i hi o ho
    have : (r.map fun x => (x.1.out, x.2.toNat))[i + 2]? = some (o.1.out, o.2.toNat) := by rw [List.getElem?_map, ho]; rfl
    rw [hr2, List.getElem?_cons_succ, List.getElem?_cons_succ] at this
    have := h3 i (by dsimp only; omega) _ this
    cases hc : o.1 with
    | bit b => rw [hc] at this; cases this; rfl
    | val w => rw [hc] at this; cases this

/-- 128 bits with ones at 5 and 67 -/
def backBits : List Bool := (List.range 128).map fun i => i == 5 || i == 67

/-- `skip_zeros` after `take(64)` finds the one already returned; another one goes back from position 70 to 67 and returns `2^64 - 3` -/
example : StreamActRun backBits ⟨0, 0, 0⟩ [.take 64, .skipZeros, .next, .skipZeros, .take 3]
    [(.val 32, 64), (.val 5, 70), (.bit false, 71), (.val (2^64 - 4), 68), (.val 0, 71)] :=
  .cons (s' := ⟨64, 0, 64⟩) (.take (k := 64) (s' := ⟨0, 0, 64⟩) (by decide) (.fill (by decide) (by decide) (by decide +kernel)))
    (.cons (s' := ⟨70, 6, 64⟩) (.skipIn (t := 5) ⟨by decide, by decide +kernel, by decide +kernel⟩ (by decide))
      (.cons (s' := ⟨71, 7, 64⟩) (.next (.keep (by decide)))
        (.cons (s' := ⟨68, 68, 128⟩) (.skipOut (q := 67) (by decide +kernel) ⟨by decide, by decide +kernel, by decide +kernel⟩)
          (.cons (s' := ⟨71, 71, 128⟩) (.take (k := 3) (s' := ⟨68, 68, 128⟩) (by decide) (.keep (by decide))) .nil))))

/-- the same on the code -/
example : (Machine.history (.pushBack (.appendBits (.appendBits (.new 0 false) 32 64) 8 63) false)).bind (fun bv =>
    Machine.Enum.run bv (Machine.Enum.new 0) [.take 64, .skipZeros, .next, .skipZeros, .take 3]) =
      some [(.val 32, 64), (.val 5, 70), (.bit false, 71), (.val (0 - 4), 68), (.val 0, 71)] := by
  decide +kernel

/-- the hypotheses of `C78_runs_past_end` for these bits -/
example : IsSucc true backBits 0 5 ∧ 5 < 0 + 64 ∧ 0 < backBits.length := ⟨⟨by decide, by decide +kernel, by decide +kernel⟩, by decide, by decide +kernel⟩

/-- an end that is noticed: there is no third one -/
example : ¬ ∃ outs, StreamActRun backBits ⟨0, 0, 0⟩ [.skipZeros, .skipZeros, .skipZeros] outs := by
  rintro ⟨outs, h⟩
  have key : ∀ s o s', StreamAct backBits s .skipZeros o s' → s.b ≤ s.c → s'.b ≤ s'.c ∧ ∃ q, backBits[q]? = some true ∧ s.b ≤ q ∧ s'.b = q + 1 := by
    intro s o s' ha hs
    cases ha with
    | @skipIn t h1 h2 => exact ⟨h2, t, h1.2.1, h1.1, rfl⟩
    | @skipOut q h1 h2 => exact ⟨by have := h2.1; dsimp only; omega, q, h2.2.1, by have := h2.1; omega, rfl⟩
  cases h with
  | cons h1 h =>
    cases h with
    | cons h2 h =>
      cases h with
      | cons h3 h =>
        obtain ⟨a1, q1, b1, c1, d1⟩ := key _ _ _ h1 (by decide)
        obtain ⟨a2, q2, b2, c2, d2⟩ := key _ _ _ h2 a1
        obtain ⟨a3, q3, b3, c3, d3⟩ := key _ _ _ h3 a2
        have hall : ∀ q, backBits[q]? = some true → q = 5 ∨ q = 67 := by
          intro q hq
          obtain ⟨hlt, _⟩ := List.getElem?_eq_some_iff.1 hq
          exact (by decide +kernel : ∀ q, q < backBits.length → backBits[q]? = some true → q = 5 ∨ q = 67) q hlt hq
        have := hall _ b1; have := hall _ b2; have := hall _ b3
        omega

end Succinct
