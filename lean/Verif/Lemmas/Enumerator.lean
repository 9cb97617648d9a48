import Verif.Model.Enumerator
import Verif.Lemmas.BitVector
import Verif.Lemmas.Select

/-! Invariants of the enumerators. -/
namespace Succinct
open Spec Broadword

theorem testBit_bitsToNat (m : List Bool) (i : Nat) : (bitsToNat m).testBit i = bitFn m i := by
  induction m generalizing i with
  | nil => simp [bitsToNat, bitFn]
  | cons b m ih =>
    have e : bitsToNat (b :: m) = b.toNat + 2 * bitsToNat m := rfl
    rw [e]
    cases i with
    | zero =>
      rw [Nat.testBit_zero]
      show _ = b
      cases b <;> simp <;> omega
    | succ i =>
      rw [Nat.testBit_succ, show (b.toNat + 2 * bitsToNat m)/2 = bitsToNat m by cases b <;> simp <;> omega, ih]
      simp [bitFn]

theorem toNat_eq_bitsToNat (x : Word) (m : List Bool) (h : ∀ i, x.getLsbD i = bitFn m i) : x.toNat = bitsToNat m := by
  apply Nat.eq_of_testBit_eq
  intro i
  rw [BitVec.testBit_toNat, h, testBit_bitsToNat]

theorem wsub_eq (a b : Nat) (h : b ≤ a) : wsub a b = a - b := by unfold wsub; rw [if_pos h]

namespace Enum
variable {v : BitVector} {l : List Bool}

/-- the buffer holds exactly the next `avail` bits -/
structure Good (l : List Bool) (e : Enum) (p : Nat) : Prop where
  pos : e.pos = p
  avail : e.avail ≤ 64
  buf : ∀ i, e.buf.getLsbD i = (decide (i < e.avail) && bitFn l (p + i))

/-- after a `take(64)` the buffer may be stale, but then nothing is available -/
def Weak (l : List Bool) (e : Enum) (p : Nat) : Prop := Good l e p ∨ (e.pos = p ∧ e.avail = 0)

theorem Weak.pos_eq {e : Enum} {p : Nat} (h : Weak l e p) : e.pos = p := by
  rcases h with h | h
  · exact h.pos
  · exact h.1

theorem new_good (p : Nat) : Good l (new p) p := ⟨rfl, by simp [new], fun i => by simp [new]⟩

theorem fillBuf_good (h : Rep v l) (e : Enum) (p : Nat) (hp : e.pos = p) (hl : p < l.length) :
    ∃ e', fillBuf v e = some e' ∧ Good l e' p ∧ e'.avail = 64 := by
  obtain ⟨x, ex, hx⟩ := BitVector.getWord_eq h p hl
  unfold fillBuf
  rw [hp, ex]
  refine ⟨_, rfl, ⟨rfl, Nat.le_refl _, ?_⟩, rfl⟩
  intro i
  by_cases hi : i < 64
  · simp only [hi, decide_true, Bool.true_and]; exact hx i hi
  · rw [BitVec.getLsbD_of_ge _ _ (by omega)]; simp [hi]

theorem shift_good {e : Enum} {p : Nat} (h : Good l e p) (n : Nat) (hn : n ≤ e.avail) :
    Good l ⟨e.pos + n, e.buf >>> n, wsub e.avail n⟩ (p + n) := by
  have ha := h.avail
  refine ⟨by simp [h.pos], ?_, ?_⟩
  · show wsub e.avail n ≤ 64
    rw [wsub_eq _ _ hn]; omega
  · intro i
    show (e.buf >>> n).getLsbD i = (decide (i < wsub e.avail n) && _)
    rw [wsub_eq _ _ hn, BitVec.getLsbD_ushiftRight, h.buf, show p + n + i = p + (n + i) by omega]
    congr 1; rw [decide_eq_decide]; omega

theorem next_good (h : Rep v l) (e : Enum) (p : Nat) (hw : Weak l e p) (hl : p < l.length) :
    ∃ e', next v e = some (bitFn l p, e') ∧ Good l e' (p+1) := by
  have key : ∀ e1, Good l e1 p → 0 < e1.avail → ∃ e', (do
      let buf ← shr e1.buf 1
      pure (e1.buf.getLsbD 0, (⟨e1.pos + 1, buf, wsub e1.avail 1⟩ : Enum)) : Option (Bool × Enum)) = some (bitFn l p, e') ∧ Good l e' (p+1) := by
    intro e1 hg ha
    rw [shr_eq _ _ (by omega), hg.buf]
    simp only [ha, decide_true, Bool.true_and, Nat.add_zero]
    exact ⟨_, rfl, shift_good hg 1 ha⟩
  unfold next
  by_cases ha : e.avail = 0
  · rw [if_pos ha]
    obtain ⟨e1, e1e, hg, ha1⟩ := fillBuf_good h e p hw.pos_eq hl
    rw [e1e]
    exact key e1 hg (by omega)
  · rw [if_neg ha]
    rcases hw with hg | hb
    · exact key e hg (by omega)
    · exact absurd hb.2 ha

theorem mask_bit' (len : Nat) (h : len < 64) (i : Nat) : ((1 : Word) <<< len - 1).getLsbD i = decide (i < len) :=
  Builder.mask_bit len h i

theorem takeAvail_good (e : Enum) (p n : Nat) (hg : Good l e p) (hn : n ≤ 64) (ha : n ≤ e.avail) :
    ∃ w e', takeAvail e n = some (w, e') ∧ w.toNat = bitsToNat ((l.drop p).take n) ∧ Weak l e' (p+n) ∧
      (n ≠ 64 → Good l e' (p+n)) ∧ (n = 64 → e'.buf = w ∧ e'.avail = 0) := by
  have hmask : ∀ x : Word, (∀ i, x.getLsbD i = (decide (i < n) && bitFn l (p+i))) → x.toNat = bitsToNat ((l.drop p).take n) := by
    intro x hx
    apply toNat_eq_bitsToNat
    intro i; rw [hx, bitFn_take, bitFn_drop]
  have hav := hg.avail
  unfold takeAvail
  by_cases h64 : n = 64
  · rw [if_neg (by simpa using h64)]
    refine ⟨_, _, rfl, ?_, Or.inr ⟨by rw [hg.pos], ?_⟩, fun hc => absurd h64 hc, fun _ => ⟨rfl, ?_⟩⟩
    · apply hmask; intro i; rw [hg.buf, show e.avail = n by omega]
    · simp only [wsub_eq _ _ ha]; omega
    · simp only [wsub_eq _ _ ha]; omega
  · rw [if_pos (by simpa using h64), shl_eq _ _ (by omega)]
    simp only [Option.bind_eq_bind, Option.bind_some]
    rw [shr_eq _ _ (by omega), Option.bind_some]
    have hg' := shift_good hg n ha
    refine ⟨_, _, rfl, ?_, Or.inl hg', fun _ => hg', fun hc => absurd hc h64⟩
    apply hmask; intro i
    rw [BitVec.getLsbD_and, mask_bit' _ (by omega), hg.buf]
    by_cases hi : i < n
    · have : i < e.avail := by omega
      simp [hi, this]
    · simp [hi]

theorem sub_zero_word (w : Word) : w &&& ((1 : Word) <<< 0 - 1) = 0 := by
  apply BitVec.eq_of_getLsbD_eq
  intro i hi
  rw [BitVec.getLsbD_and, mask_bit' 0 (by omega)]
  simp

theorem takeAvail_zero (e : Enum) : takeAvail e 0 = some (0, ⟨e.pos + 0, e.buf, wsub e.avail 0⟩) := by
  have h : takeAvail e 0 = some (e.buf &&& ((1 : Word) <<< 0 - 1), ⟨e.pos + 0, e.buf >>> 0, wsub e.avail 0⟩) := by
    unfold takeAvail
    rw [if_pos (by omega), shl_eq 1 0 (by decide), shr_eq e.buf 0 (by decide)]
    rfl
  rw [h, sub_zero_word, BitVec.ushiftRight_zero]

theorem take_good (h : Rep v l) (e : Enum) (p n : Nat) (hw : Weak l e p) (hn : n ≤ 64) (hl : p + n ≤ l.length) :
    ∃ w e', take v e n = some (w, e') ∧ w.toNat = bitsToNat ((l.drop p).take n) ∧ Weak l e' (p+n) ∧
      (n ≠ 64 → n ≠ 0 → Good l e' (p+n)) ∧ (n = 0 → Good l e p → Good l e' p) ∧ (n = 64 → e'.buf = w ∧ e'.avail = 0) := by
  unfold take
  by_cases ha : e.avail < n
  · rw [if_pos ha]
    obtain ⟨e1, e1e, hg, ha1⟩ := fillBuf_good h e p hw.pos_eq (by omega)
    rw [e1e, Option.bind_eq_bind, Option.bind_some]
    obtain ⟨w, e', k1, k2, k3, k4, k5⟩ := takeAvail_good e1 p n hg hn (by omega)
    exact ⟨w, e', k1, k2, k3, fun x _ => k4 x, fun x => by omega, k5⟩
  · rw [if_neg ha, Option.bind_eq_bind, Option.bind_some]
    rcases hw with hg | hb
    · obtain ⟨w, e', k1, k2, k3, k4, k5⟩ := takeAvail_good e p n hg hn (by omega)
      refine ⟨w, e', k1, k2, k3, fun x _ => k4 x, ?_, k5⟩
      intro x _
      have := k4 (by omega)
      rwa [x, Nat.add_zero] at this
    · have h0 : n = 0 := by omega
      subst h0
      have ht := takeAvail_zero e
      refine ⟨_, _, ht, ?_, Or.inr ⟨by simpa using hb.1, ?_⟩, fun _ x => absurd rfl x, ?_, fun x => by omega⟩
      · simp [bitsToNat]
      · simp only [wsub_eq _ _ (Nat.zero_le _)]; omega
      · intro _ hg
        have := shift_good hg 0 (by omega)
        rw [BitVec.ushiftRight_zero] at this
        exact this

theorem skipZerosLoop_good (h : Rep v l) (q : Nat) (fuel : Nat) (e : Enum) (p zs : Nat) (hg : Good l e p)
    (hq : IsSucc true l p q) (hfuel : q + 64 < p + e.avail + 64 * fuel + 64) (hf0 : 0 < fuel ∨ 0 < e.avail):
    ∃ e' p', skipZerosLoop v fuel e zs = some (e', zs + (p' - p)) ∧ Good l e' p' ∧ p ≤ p' ∧ p' ≤ q ∧ e'.buf ≠ 0 := by
  induction fuel generalizing e p zs with
  | zero =>
    unfold skipZerosLoop
    have hne : e.buf ≠ 0 := by
      intro hc
      have := hg.buf (q - p)
      rw [hc, show p + (q - p) = q by have := hq.1; omega, (bitFn_eq_true l q).mpr hq.2.1] at this
      have h2 : q - p < e.avail := by have := hq.1; omega
      simp [h2] at this
    rw [if_neg hne]
    exact ⟨e, p, by simp, hg, Nat.le_refl _, hq.1, hne⟩
  | succ fuel ih =>
    unfold skipZerosLoop
    by_cases hz : e.buf = 0
    · rw [if_pos hz]
      have hql : q < l.length := bitFn_lt l q ((bitFn_eq_true l q).mpr hq.2.1)
      have hpq : p + e.avail ≤ q := by
        by_contra hc
        have := hg.buf (q - p)
        rw [hz, show p + (q - p) = q by have := hq.1; omega, (bitFn_eq_true l q).mpr hq.2.1] at this
        have h2 : q - p < e.avail := by have := hq.1; omega
        simp [h2] at this
      obtain ⟨e1, e1e, hg1, ha1⟩ := fillBuf_good h ⟨e.pos + e.avail, e.buf, 0⟩ (p + e.avail) (by simp [hg.pos]) (by omega)
      simp only [Option.bind_eq_bind]
      rw [e1e, Option.bind_some]
      obtain ⟨e', p', k1, k2, k3, k4, k5⟩ := ih e1 (p + e.avail) (zs + e.avail) hg1
        ⟨hpq, hq.2.1, fun r hr => hq.2.2 r (by omega)⟩ (by omega) (Or.inr (by omega))
      refine ⟨e', p', ?_, k2, by omega, k4, k5⟩
      rw [k1]; congr 2; omega
    · rw [if_neg hz]
      exact ⟨e, p, by simp, hg, Nat.le_refl _, hq.1, hz⟩

theorem skipZeros_good (h : Rep v l) (e : Enum) (p q : Nat) (hg : Good l e p) (hq : IsSucc true l p q) :
    ∃ e', skipZeros v e = some (q - p, e') ∧ Good l e' (q+1) := by
  have hql : q < l.length := bitFn_lt l q ((bitFn_eq_true l q).mpr hq.2.1)
  have hl := h.len
  obtain ⟨e1, p', k1, k2, k3, k4, k5⟩ := skipZerosLoop_good h q (v.bits.length + 2) e p 0 hg hq (by omega) (Or.inl (by omega))
  obtain ⟨r, hr⟩ := lsb_exists _ k5
  obtain ⟨r1, r2, r3⟩ := (lsb_some _ _).mp hr
  have hr2 := r2
  rw [k2.buf] at hr2
  simp only [Bool.and_eq_true, decide_eq_true_eq] at hr2
  have hqr : q = p' + r := by
    rcases Nat.lt_trichotomy q (p' + r) with hlt | heq | hgt
    · have := r3 (q - p') (by omega)
      rw [k2.buf, show p' + (q - p') = q by omega, (bitFn_eq_true l q).mpr hq.2.1] at this
      have h2 : q - p' < e1.avail := by omega
      simp [h2] at this
    · exact heq
    · exact absurd ((bitFn_eq_true l _).mp hr2.2) (hq.2.2 _ (by omega) hgt)
  unfold skipZeros
  rw [k1]
  simp only [Option.bind_eq_bind, Option.bind_some]
  rw [hr, Option.bind_some, shr_eq _ _ r1, Option.bind_some, shr_eq _ _ (by omega), Option.bind_some]
  rw [show 0 + (p' - p) + r = q - p by omega]
  refine ⟨_, rfl, ?_⟩
  · have := shift_good k2 (r+1) hr2.1
    rw [← BitVec.shiftRight_add]
    rwa [show p' + (r+1) = q + 1 by omega] at this

/-- a `take(64)` that returned 0 leaves no stale bits -/
theorem Weak.zero {e : Enum} {p : Nat} (hw : Weak l e p) (ha : e.avail = 0) (hb : e.buf = 0) : Good l e p :=
  ⟨hw.pos_eq, by omega, fun i => by rw [hb, ha]; simp⟩

/-- a history without stale reads, followed by calls `rest` that answer `ro` from every state reached -/
theorem run_prefix (h : Rep v l) (rest : List EnumOp) (ro : List (EnumOut × Nat)) (ops : List EnumOp) : ∀ (e : Enum) (p : Nat) (b : Bool) outs,
    StreamRun l p ops outs → NoStale b ops outs → Weak l e p → (b = false → Good l e p) →
    (∀ e', Weak l e' ((outs.map Prod.snd).getLastD p) → run v e' rest = some ro) → run v e (ops ++ rest) = some (outs ++ ro) := by
  induction ops with
  | nil => intro e p b outs hr _ hw _ hk; cases hr; exact hk e hw
  | cons op ops ih =>
    intro e p b outs hr hs hw hg hk
    cases hr with
    | cons hstep hrest =>
    rw [List.map_cons, List.getLastD_cons] at hk
    cases hstep with
    | next hb =>
      rename_i b'
      have hlt : p < l.length := by
        by_contra hc
        rw [List.getElem?_eq_none (by omega)] at hb; simp at hb
      obtain ⟨e', k1, k2⟩ := next_good h e p hw hlt
      simp only [List.cons_append, run, step, k1, Option.bind_eq_bind, Option.bind_some, pure]
      rw [ih e' (p+1) false _ hrest hs (Or.inl k2) (fun _ => k2) hk]
      rw [bitFn_getElem? l p hlt] at hb
      simp only [Option.some.injEq] at hb
      simp [hb, k2.pos]
    | take hn hl =>
      rename_i n
      obtain ⟨w, e', k1, k2, k3, k4, k5, k6⟩ := take_good h e p n hw hn hl
      simp only [List.cons_append, run, step, k1, Option.bind_eq_bind, Option.bind_some, pure]
      unfold NoStale at hs
      rw [ih e' (p+n) _ _ hrest hs k3 ?_ hk]
      · simp [k2, k3.pos_eq]
      · intro hb
        by_cases h64 : n = 64
        · obtain ⟨k7, k8⟩ := k6 h64
          rw [if_pos h64, ← k2] at hb
          refine k3.zero k8 ?_
          have : w.toNat = 0 := by simpa using hb
          rw [k7]; exact BitVec.eq_of_toNat_eq this
        · by_cases h0 : n = 0
          · subst h0
            simp only [Nat.add_zero]
            exact k5 rfl (hg (by simpa using hb))
          · exact k4 h64 h0
    | skipZeros hq =>
      rename_i q
      obtain ⟨e', k1, k2⟩ := skipZeros_good h e p q (hg hs.1) hq
      simp only [List.cons_append, run, step, k1, Option.bind_eq_bind, Option.bind_some, pure]
      rw [ih e' (q+1) false _ hrest hs.2 (Or.inl k2) (fun _ => k2) hk]
      simp [k2.pos]

theorem run_good (h : Rep v l) (ops : List EnumOp) (e : Enum) (p : Nat) (b : Bool) (outs) (hr : StreamRun l p ops outs)
    (hs : NoStale b ops outs) (hw : Weak l e p) (hg : b = false → Good l e p) : run v e ops = some outs := by
  have := run_prefix h [] [] ops e p b outs hr hs hw hg (fun _ _ => rfl)
  rwa [List.append_nil, List.append_nil] at this

/-- `take(64)` of something else than 0, then `skip_zeros`: the zeros skipped are those of the word already taken -/
theorem stale_run (h : Rep v l) (e : Enum) (p r : Nat) (hw : Weak l e p) (hl : p + 64 ≤ l.length) (hr : IsSucc true l p r) (h64 : r < p + 64) :
    run v e [.take 64, .skipZeros] =
      some [(.val (bitsToNat ((l.drop p).take 64)), p + 64), (.val (r - p), p + 64 + (r - p) + 1)] := by
  obtain ⟨w, e', k1, k2, k3, _, _, k6⟩ := take_good h e p 64 hw (by omega) hl
  obtain ⟨k7, k8⟩ := k6 rfl
  have hwb : ∀ i, w.getLsbD i = (decide (i < 64) && bitFn l (p+i)) := by
    intro i
    have := testBit_bitsToNat ((l.drop p).take 64) i
    rwa [← k2, BitVec.testBit_toNat, bitFn_take, bitFn_drop] at this
  have hpr := hr.1
  have hlsb : lsb w = some (r - p) := by
    rw [lsb_some]
    refine ⟨by omega, ?_, fun j hj => ?_⟩
    · rw [hwb, show p + (r - p) = r by omega, (bitFn_eq_true l r).mpr hr.2.1]
      simp; omega
    · rw [hwb]
      cases hf : bitFn l (p+j) with
      | false => simp
      | true => exact absurd ((bitFn_eq_true l _).mp hf) (hr.2.2 _ (by omega) (by omega))
  have hne : e'.buf ≠ 0 := by
    rw [k7]; intro hc
    have := ((lsb_some _ _).mp hlsb).2.1
    rw [hc] at this; simp at this
  simp only [run, step, k1, Option.bind_eq_bind, Option.bind_some, pure]
  unfold skipZeros skipZerosLoop
  rw [if_neg hne]
  simp only [Option.bind_eq_bind, Option.bind_some, k7, hlsb]
  rw [shr_eq _ _ (by omega), Option.bind_some, shr_eq _ _ (by omega)]
  simp only [Option.bind_some, pure, k2, k3.pos_eq]
  rw [Nat.zero_add]
  rfl

end Enum

namespace UEnum
variable {bits : List Word}

/-- the bits seen from the start of the current word: `buf`, then the following words -/
def seen (neg : Bool) (bits : List Word) (W : Nat) (buf : Word) (i : Nat) : Bool :=
  if i < 64 then buf.getLsbD i else (neg ^^ wbit bits (64*W+i))

theorem seen_next (neg : Bool) (W : Nat) (buf : Word) (i : Nat) (hW : W + 1 < bits.length) :
    seen neg bits (W+1) (if neg = true then ~~~bits[W+1] else bits[W+1]) i = seen neg bits W buf (64 + i) := by
  unfold seen
  by_cases hi : i < 64
  · rw [if_pos hi, if_neg (show ¬ 64 + i < 64 by omega), BitVector.neg_bit _ _ _ hi, getElem_getLsbD _ _ _ hW hi]
    congr 2; omega
  · rw [if_neg hi, if_neg (by omega)]
    congr 2; omega

theorem cnt_seen64 (neg : Bool) (W : Nat) (buf : Word) : cnt (seen neg bits W buf) 64 = cnt buf.getLsbD 64 := by
  apply cnt_congr; intro i hi; unfold seen; rw [if_pos hi]

theorem skipLoop_spec (neg : Bool) (fuel : Nat) (position skipped k q : Nat) (buf : Word)
    (hq : seen neg bits (position/64) buf q = true) (hk : skipped + cnt (seen neg bits (position/64) buf) q = k)
    (hb : position/64 + q/64 < bits.length) (hf : q/64 ≤ fuel) :
    ∃ position' skipped' buf', skipLoop neg bits k fuel position skipped buf = some (position', skipped', buf') ∧
      position'/64 = position/64 + q/64 ∧ buf'.getLsbD (q%64) = true ∧ skipped' + cnt buf'.getLsbD (q%64) = k ∧
      (∀ i, i < 64 → buf'.getLsbD i = seen neg bits (position/64) buf (64*(q/64)+i)) := by
  induction fuel generalizing position skipped buf q with
  | zero =>
    have hlt : q < 64 := by omega
    unfold skipLoop
    simp only []
    have hc : cnt (seen neg bits (position/64) buf) q < cnt buf.getLsbD 64 := by
      rw [← cnt_seen64 neg (position/64) (bits := bits)]; exact cnt_lt_of_true hlt hq
    rw [popcount_eq, if_neg (by omega)]
    refine ⟨_, _, _, rfl, by omega, ?_, ?_, ?_⟩
    · unfold seen at hq; rw [if_pos hlt] at hq; rw [show q % 64 = q by omega]; exact hq
    · rw [show q % 64 = q by omega, ← hk]; congr 1; apply cnt_congr; intro i hi; unfold seen; rw [if_pos (by omega)]
    · intro i hi; rw [show 64*(q/64) + i = i by omega]; unfold seen; rw [if_pos hi]
  | succ fuel ih =>
    unfold skipLoop
    simp only []
    rw [popcount_eq]
    by_cases hlt : q < 64
    · have hc : cnt (seen neg bits (position/64) buf) q < cnt buf.getLsbD 64 := by
        rw [← cnt_seen64 neg (position/64) (bits := bits)]; exact cnt_lt_of_true hlt hq
      rw [if_neg (by omega)]
      refine ⟨_, _, _, rfl, by omega, ?_, ?_, ?_⟩
      · unfold seen at hq; rw [if_pos hlt] at hq; rw [show q % 64 = q by omega]; exact hq
      · rw [show q % 64 = q by omega, ← hk]; congr 1; apply cnt_congr; intro i hi; unfold seen; rw [if_pos (by omega)]
      · intro i hi; rw [show 64*(q/64) + i = i by omega]; unfold seen; rw [if_pos hi]
    · have hsplit : cnt (seen neg bits (position/64) buf) q = cnt buf.getLsbD 64 +
          cnt (fun i => seen neg bits (position/64) buf (64 + i)) (q - 64) := by
        rw [← cnt_seen64 neg (position/64) (bits := bits), ← cnt_add, show 64 + (q - 64) = q by omega]
      rw [if_pos (by omega)]
      have hW : position/64 + 1 < bits.length := by omega
      have e64 : (position + 64)/64 = position/64 + 1 := by omega
      rw [e64, rd_eq _ _ hW]
      simp only [Option.bind_eq_bind, Option.bind_some]
      have hseen := fun i => seen_next (bits := bits) neg (position/64) buf i hW
      obtain ⟨p', s', b', k1, k2, k3, k4, k5⟩ := ih (position+64) (skipped + cnt buf.getLsbD 64) (q - 64)
        (if neg = true then ~~~bits[position/64+1] else bits[position/64+1])
        (by rw [e64, hseen, show 64 + (q - 64) = q by omega]; exact hq)
        (by rw [e64, ← hk, hsplit, Nat.add_assoc]; congr 2; apply cnt_congr; intro i _; rw [hseen])
        (by omega) (by omega)
      rw [show (q-64)%64 = q%64 by omega] at k3 k4
      refine ⟨p', s', b', k1, by omega, k3, k4, ?_⟩
      intro i hi
      rw [k5 i hi, e64, hseen]
      congr 1; omega

theorem nextLoop_spec (fuel : Nat) (position q : Nat) (buf : Word)
    (hq : seen false bits (position/64) buf q = true) (hk : ∀ i, i < q → seen false bits (position/64) buf i = false)
    (hb : position/64 + q/64 < bits.length) (hf : q/64 ≤ fuel) :
    ∃ position' buf', nextLoop bits fuel position buf = some (position', buf', q%64) ∧
      position'/64 = position/64 + q/64 ∧ lsb buf' = some (q%64) ∧
      (∀ i, i < 64 → buf'.getLsbD i = seen false bits (position/64) buf (64*(q/64)+i)) := by
  have base : q < 64 → lsb buf = some q := by
    intro hlt
    rw [lsb_some]
    refine ⟨hlt, ?_, ?_⟩
    · unfold seen at hq; rw [if_pos hlt] at hq; exact hq
    · intro j hj
      have := hk j hj
      unfold seen at this; rw [if_pos (by omega)] at this; exact this
  induction fuel generalizing position buf q with
  | zero =>
    have hlt : q < 64 := by omega
    have hb := base hlt
    unfold nextLoop
    rw [hb]
    refine ⟨_, _, by rw [show q % 64 = q by omega], by omega, by rw [hb, show q % 64 = q by omega], ?_⟩
    intro i hi; rw [show 64*(q/64) + i = i by omega]; unfold seen; rw [if_pos hi]
  | succ fuel ih =>
    by_cases hlt : q < 64
    · have hb := base hlt
      unfold nextLoop
      rw [hb]
      refine ⟨_, _, by rw [show q % 64 = q by omega], by omega, by rw [hb, show q % 64 = q by omega], ?_⟩
      intro i hi; rw [show 64*(q/64) + i = i by omega]; unfold seen; rw [if_pos hi]
    · have hz : lsb buf = none := by
        rw [lsb_none]
        apply BitVec.eq_of_getLsbD_eq
        intro i hi
        have := hk i (by omega)
        unfold seen at this; rw [if_pos hi] at this; rw [this]; simp
      unfold nextLoop
      rw [hz]
      have hW : position/64 + 1 < bits.length := by omega
      have e64 : (position + 64)/64 = position/64 + 1 := by omega
      simp only []
      rw [e64, rd_eq _ _ hW]
      simp only [Option.bind_eq_bind, Option.bind_some]
      have hseen := fun i => seen_next (bits := bits) false (position/64) buf i hW
      simp only [Bool.false_eq_true, if_false] at hseen
      have hq' : seen false bits ((position+64)/64) bits[position/64+1] (q-64) = true := by
        rw [e64, hseen, show 64 + (q - 64) = q by omega]; exact hq
      have hk' : ∀ i, i < q - 64 → seen false bits ((position+64)/64) bits[position/64+1] i = false := by
        intro i hi; rw [e64, hseen]; exact hk _ (by omega)
      obtain ⟨p', b', k1, k2, k3, k4⟩ := ih (position+64) (q - 64) bits[position/64+1] hq' hk'
        (by omega) (by omega) (by
          intro hlt
          rw [lsb_some]
          refine ⟨hlt, ?_, ?_⟩
          · unfold seen at hq'; rw [if_pos hlt] at hq'; exact hq'
          · intro j hj
            have := hk' j hj
            unfold seen at this; rw [if_pos (by omega)] at this; exact this)
      rw [show (q-64)%64 = q%64 by omega] at k1 k3
      refine ⟨p', b', k1, by omega, k3, ?_⟩
      intro i hi
      rw [k4 i hi, e64, hseen]
      congr 1; omega

theorem clear_lsb (x : Word) (r : Nat) (h : lsb x = some r) (i : Nat) :
    (x &&& (x - 1)).getLsbD i = (x.getLsbD i && decide (i ≠ r)) := by
  have e : x &&& (x - 1) = x &&& ~~~(x &&& -x) := by
    rw [show x - 1 = ~~~(-x) from (BitVec.not_neg x).symm, BitVec.not_and]
    apply BitVec.eq_of_getLsbD_eq
    intro i hi
    simp only [BitVec.getLsbD_and, BitVec.getLsbD_or, BitVec.getLsbD_not, hi, decide_true, Bool.true_and]
    cases x.getLsbD i <;> simp
  rw [e, and_neg_eq x r h, BitVec.getLsbD_and, BitVec.getLsbD_not]
  have hr := ((lsb_some x r).mp h).1
  have e2 := BitVector.getLsbD_one_shl' r i hr
  by_cases hi : i < 64
  · rw [show (1#64 <<< r).getLsbD i = decide (i = r) from e2]
    simp [hi]
  · rw [BitVec.getLsbD_of_ge x _ (by omega)]; simp

variable {l : List Bool}

/-- the state when the first unconsumed position is `c` -/
structure Good (l : List Bool) (e : UEnum) (c : Nat) : Prop where
  lo : 64 * (e.position/64) ≤ c
  hi : c ≤ 64 * (e.position/64) + 64
  buf : ∀ i, i < 64 → e.buf.getLsbD i = (decide (c ≤ 64*(e.position/64)+i) && bitFn l (64*(e.position/64)+i))

theorem allOnes_shl_bit (s i : Nat) (hi : i < 64) : (BitVec.allOnes 64 <<< s).getLsbD i = decide (s ≤ i) := by
  rw [BitVec.getLsbD_shiftLeft, BitVec.getLsbD_allOnes]
  by_cases h : s ≤ i
  · have h1 : ¬ i < s := by omega
    have h2 : i - s < 64 := by omega
    simp [h, h1, hi, h2]
  · have h1 : i < s := by omega
    simp [h, h1]

theorem new_good (hr : Repr bits l) (pos : Nat) (hp : pos < l.length) :
    ∃ e, new bits pos = some e ∧ Good l e pos ∧ e.position = pos := by
  have hl := hr.len
  rw [wordsFor_eq] at hl
  unfold new
  rw [rd_eq _ _ (by omega), shl_eq _ _ (by omega)]
  refine ⟨_, rfl, ⟨by simp; omega, by simp; omega, ?_⟩, rfl⟩
  intro i hi
  simp only []
  rw [BitVec.getLsbD_and, getElem_getLsbD _ _ _ (by omega) hi, hr.bit, allOnes_shl_bit _ _ hi, Bool.and_comm]
  congr 1; rw [decide_eq_decide]; omega

theorem seen_good (hr : Repr bits l) {e : UEnum} {c : Nat} (hg : Good l e c) (i : Nat) :
    seen false bits (e.position/64) e.buf i =
      (decide (c ≤ 64*(e.position/64)+i) && bitFn l (64*(e.position/64)+i)) := by
  unfold seen
  by_cases hi : i < 64
  · rw [if_pos hi, hg.buf i hi]
  · have h1 := hg.hi
    have : c ≤ 64*(e.position/64)+i := by omega
    rw [if_neg hi, hr.bit]; simp [this]

theorem cnt_from (f : Nat → Bool) (B c n : Nat) (h1 : B ≤ c) (h2 : c ≤ B + n) :
    cnt (fun i => decide (c ≤ B + i) && f (B + i)) n + cnt f c = cnt f (B + n) := by
  obtain ⟨d, rfl⟩ := Nat.exists_eq_add_of_le h1
  obtain ⟨m, rfl⟩ := Nat.exists_eq_add_of_le (show d ≤ n by omega)
  rw [cnt_add, cnt_false (n := d), Nat.zero_add, ← Nat.add_assoc, cnt_add f (B+d) m, Nat.add_comm]
  · congr 1
    apply cnt_congr
    intro i hi
    have : B + d ≤ B + (d + i) := by omega
    simp only [this, decide_true, Bool.true_and]
    congr 1; omega
  · intro i hi
    have : ¬ B + d ≤ B + i := by omega
    simp [this]

theorem next_good' (hr : Repr bits l) (e : UEnum) (c q : Nat) (hg : Good l e c) (hq : IsSucc true l c q) :
    ∃ e', next bits e = some (q, e') ∧ Good l e' (q+1) ∧ e'.position = q := by
  have hl := hr.len
  rw [wordsFor_eq] at hl
  have hb := (bitFn_eq_true l q).mpr hq.2.1
  have hql : q < l.length := bitFn_lt l q hb
  have h1 := hg.lo
  have hcq := hq.1
  have hq' : seen false bits (e.position/64) e.buf (q - 64*(e.position/64)) = true := by
    rw [seen_good hr hg, show 64*(e.position/64) + (q - 64*(e.position/64)) = q by omega, hb]; simp [hcq]
  obtain ⟨p', b', k1, k2, k3, k4⟩ := nextLoop_spec (bits := bits) bits.length e.position (q - 64*(e.position/64)) e.buf hq' (by
    intro i hi
    rw [seen_good hr hg]
    by_cases hc : c ≤ 64*(e.position/64) + i
    · have := hq.2.2 _ hc (by omega)
      cases hf : bitFn l (64*(e.position/64)+i) with
      | false => simp
      | true => exact absurd ((bitFn_eq_true l _).mp hf) this
    · simp [hc]) (by omega) (by omega)
  unfold next
  rw [k1]
  have epos : 64 * (p'/64) + (q - 64*(e.position/64)) % 64 = q := by omega
  simp only [Option.bind_eq_bind, Option.bind_some]
  rw [epos]
  refine ⟨_, rfl, ?_, rfl⟩
  · refine ⟨by simp; omega, by simp; omega, ?_⟩
    intro i hi
    simp only []
    rw [clear_lsb _ _ k3, k4 i hi, seen_good hr hg]
    have e5 : 64*(e.position/64) + (64*((q - 64*(e.position/64))/64) + i) = 64*(q/64) + i := by omega
    rw [e5]
    by_cases h5 : q < 64*(q/64) + i
    · have a1 : c ≤ 64*(q/64) + i := by omega
      have a2 : i ≠ (q - 64*(e.position/64)) % 64 := by omega
      have a3 : q + 1 ≤ 64*(q/64)+i := by omega
      simp [a1, a2, a3]
    · have a3 : ¬ (q + 1 ≤ 64*(q/64)+i) := by omega
      by_cases h6 : 64*(q/64)+i = q
      · have a2 : i = (q - 64*(e.position/64)) % 64 := by omega
        rw [← a2]; simp [a3]
      · by_cases h7 : c ≤ 64*(q/64)+i
        · have := hq.2.2 _ h7 (by omega)
          cases hf : bitFn l (64*(q/64)+i) with
          | false => simp
          | true => exact absurd ((bitFn_eq_true l _).mp hf) this
        · simp [h7, a3]

theorem next_good (hr : Repr bits l) (e : UEnum) (c q : Nat) (hg : Good l e c) (hq : IsSucc true l c q) :
    ∃ e', next bits e = some (q, e') ∧ Good l e' (q+1) := by
  obtain ⟨e', h1, h2, _⟩ := next_good' hr e c q hg hq
  exact ⟨e', h1, h2⟩

/-- common part of `skip` and `skip_no_move` -/
theorem skip_core (hr : Repr bits l) (e : UEnum) (c k q : Nat) (hg : Good l e c) (hcq : c ≤ q)
    (hq : IsSelect1 l (rank1 l c + k) q) :
    ∃ p' s' b', skipLoop false bits k bits.length e.position 0 e.buf = some (p', s', b') ∧ b' ≠ 0 ∧ s' ≤ k ∧
      selectInWord b' (k - s') = some (q % 64) ∧ p'/64 = q/64 ∧
      ∀ i, i < 64 → b'.getLsbD i = (decide (c ≤ 64*(q/64)+i) && bitFn l (64*(q/64)+i)) := by
  have hl := hr.len
  rw [wordsFor_eq] at hl
  rw [isSelect1_iff, rank1_eq_cnt] at hq
  have hql : q < l.length := bitFn_lt l q hq.1
  have h1 := hg.lo
  have hseen : seen false bits (e.position/64) e.buf = fun i => (decide (c ≤ 64*(e.position/64)+i) && bitFn l (64*(e.position/64)+i)) := by
    funext i; exact seen_good hr hg i
  have hcnt := cnt_from (bitFn l) (64*(e.position/64)) c (q - 64*(e.position/64)) h1 (by omega)
  rw [show 64*(e.position/64) + (q - 64*(e.position/64)) = q by omega] at hcnt
  obtain ⟨p', s', b', k1, k2, k3, k4, k5⟩ := skipLoop_spec (bits := bits) false bits.length e.position 0 k (q - 64*(e.position/64)) e.buf
    (by rw [hseen]; simp only []
        rw [show 64*(e.position/64) + (q - 64*(e.position/64)) = q by omega, hq.1]; simp [hcq])
    (by rw [hseen]; omega) (by omega) (by omega)
  rw [show (q - 64*(e.position/64)) % 64 = q % 64 by omega] at k3 k4
  have hlt : cnt b'.getLsbD (q%64) < cnt b'.getLsbD 64 := cnt_lt_of_true (by omega) k3
  obtain ⟨r, s1, s2, s3, s4⟩ := selectInWord_spec b' (k - s') (by omega)
  have hrq : r = q % 64 := sel_unique s3 k3 (by omega)
  refine ⟨p', s', b', k1, ?_, by omega, by rw [s1, hrq], by omega, ?_⟩
  · intro hc; rw [hc] at k3; simp at k3
  · intro i hi
    rw [k5 i hi, hseen]
    simp only []
    rw [show 64*(e.position/64) + (64*((q - 64*(e.position/64))/64) + i) = 64*(q/64)+i by omega]

theorem skip_good (hr : Repr bits l) (e : UEnum) (c k q : Nat) (hg : Good l e c) (hcq : c ≤ q)
    (hq : IsSelect1 l (rank1 l c + k) q) :
    ∃ e', skip bits e k = some e' ∧ Good l e' q ∧ e'.position = q := by
  obtain ⟨p', s', b', k1, k2, k3, k4, k5, k6⟩ := skip_core hr e c k q hg hcq hq
  unfold skip
  rw [k1]
  simp only [Option.bind_eq_bind, Option.bind_some]
  rw [assertP_eq _ k2, Option.bind_some, subU_eq _ _ k3, Option.bind_some, k4, Option.bind_some, shl_eq _ _ (by omega), Option.bind_some]
  have epos : 64 * (p'/64) + q % 64 = q := by omega
  rw [epos]
  refine ⟨_, rfl, ⟨by simp; omega, by simp; omega, ?_⟩, rfl⟩
  intro i hi
  simp only []
  rw [BitVec.getLsbD_and, k6 i hi, allOnes_shl_bit _ _ hi]
  by_cases h1 : q ≤ 64*(q/64) + i
  · have a1 : c ≤ 64*(q/64)+i := by omega
    have a2 : q % 64 ≤ i := by omega
    simp [h1, a1, a2]
  · have a2 : ¬ q % 64 ≤ i := by omega
    simp [h1, a2]

theorem skipNoMove_good (hr : Repr bits l) (e : UEnum) (c k q : Nat) (hg : Good l e c) (hcq : c ≤ q)
    (hq : IsSelect1 l (rank1 l c + k) q) : skipNoMove bits e k = some q := by
  obtain ⟨p', s', b', k1, k2, k3, k4, k5, k6⟩ := skip_core hr e c k q hg hcq hq
  unfold skipNoMove
  rw [k1]
  simp only [Option.bind_eq_bind, Option.bind_some]
  rw [assertP_eq _ k2, Option.bind_some, subU_eq _ _ k3, Option.bind_some, k4, Option.bind_some]
  have epos : 64 * (p'/64) + q % 64 = q := by omega
  rw [epos]; rfl

/-- `skip0` only looks at the words after the current one -/
theorem skip0_gen (hl : l.length ≤ 64 * bits.length) (e : UEnum) (c k q : Nat)
    (hbit : ∀ i, 64 * (e.position/64) + 64 ≤ i → wbit bits i = bitFn l i) (hg : Good l e c) (hpos : e.position = c) (hcq : c ≤ q)
    (hq : IsSelect0 l (rank0 l c + k) q) :
    ∃ e', skip0 bits e k = some e' ∧ Good l e' q ∧ e'.position = q := by
  have hql : q < l.length := ((isSelect0_iff _ _ _).mp hq).1
  have hbq : bitFn l q = false := ((isSelect0_iff _ _ _).mp hq).2.1
  have hq2 := hq.2
  rw [rank0_eq_cnt _ _ (by omega), rank0_eq_cnt _ _ (by omega)] at hq2
  subst hpos
  have hbuf0 : ∀ i, i < 64 → (~~~e.buf &&& BitVec.allOnes 64 <<< (e.position%64)).getLsbD i =
      (decide (e.position ≤ 64*(e.position/64)+i) && !bitFn l (64*(e.position/64)+i)) := by
    intro i hi
    rw [BitVec.getLsbD_and, BitVec.getLsbD_not, allOnes_shl_bit _ _ hi, hg.buf i hi]
    by_cases h1 : e.position ≤ 64*(e.position/64)+i
    · have a1 : e.position % 64 ≤ i := by omega
      simp [hi, h1, a1]
    · have a1 : ¬ e.position % 64 ≤ i := by omega
      simp [h1, a1]
  have hseen : seen true bits (e.position/64) (~~~e.buf &&& BitVec.allOnes 64 <<< (e.position%64)) =
      fun i => (decide (e.position ≤ 64*(e.position/64)+i) && (fun p => !bitFn l p) (64*(e.position/64)+i)) := by
    funext i
    unfold seen
    by_cases hi : i < 64
    · rw [if_pos hi, hbuf0 i hi]
    · have : e.position ≤ 64*(e.position/64)+i := by omega
      rw [if_neg hi, hbit _ (by omega)]; simp [this]
  have hcnt := cnt_from (fun p => !bitFn l p) (64*(e.position/64)) e.position (q - 64*(e.position/64)) (by omega) (by omega)
  rw [show 64*(e.position/64) + (q - 64*(e.position/64)) = q by omega] at hcnt
  simp only [] at hcnt hseen
  obtain ⟨p', s', b', k1, k2, k3, k4, k5⟩ := skipLoop_spec (bits := bits) true bits.length e.position 0 k (q - 64*(e.position/64)) _
    (by rw [hseen]; simp only []
        rw [show 64*(e.position/64) + (q - 64*(e.position/64)) = q by omega, hbq]; simp [hcq])
    (by rw [hseen]; omega) (by omega) (by omega)
  rw [show (q - 64*(e.position/64)) % 64 = q % 64 by omega] at k3 k4
  have hlt : cnt b'.getLsbD (q%64) < cnt b'.getLsbD 64 := cnt_lt_of_true (by omega) k3
  obtain ⟨r, s1, s2, s3, s4⟩ := selectInWord_spec b' (k - s') (by omega)
  have hrq : r = q % 64 := sel_unique s3 k3 (by omega)
  subst hrq
  unfold skip0
  rw [shl_eq _ _ (by omega)]
  simp only [Option.bind_eq_bind, Option.bind_some]
  rw [k1]
  simp only [Option.bind_some]
  rw [assertP_eq _ (by intro hc; rw [hc] at k3; simp at k3), Option.bind_some, subU_eq _ _ (by omega), Option.bind_some, s1, Option.bind_some,
    shl_eq _ _ (by omega), Option.bind_some]
  have epos : 64 * (p'/64) + q % 64 = q := by omega
  rw [epos]
  refine ⟨_, rfl, ⟨by simp; omega, by simp; omega, ?_⟩, rfl⟩
  intro i hi
  simp only []
  rw [BitVec.getLsbD_and, BitVec.getLsbD_not, k5 i hi, allOnes_shl_bit _ _ hi, hseen]
  simp only []
  rw [show 64*(e.position/64) + (64*((q - 64*(e.position/64))/64) + i) = 64*(q/64)+i by omega]
  by_cases h1 : q ≤ 64*(q/64) + i
  · have a1 : e.position ≤ 64*(q/64)+i := by omega
    have a2 : q % 64 ≤ i := by omega
    simp [h1, a1, a2, hi]
  · have a2 : ¬ q % 64 ≤ i := by omega
    simp [h1, a2]

theorem skip0_good (hr : Repr bits l) (e : UEnum) (c k q : Nat) (hg : Good l e c) (hpos : e.position = c) (hcq : c ≤ q)
    (hq : IsSelect0 l (rank0 l c + k) q) :
    ∃ e', skip0 bits e k = some e' ∧ Good l e' q ∧ e'.position = q := by
  have hl := hr.len
  rw [wordsFor_eq] at hl
  exact skip0_gen (by omega) e c k q (fun i _ => hr.bit i) hg hpos hcq hq

/-- `skip0` directly after `next`, standing on the one at `p`: it does not get as far as it should -/
theorem skip0_after_next (hr : Repr bits l) (e : UEnum) (p k q : Nat) (hg : Good l e (p+1)) (hpos : e.position = p) (hcq : p + 1 ≤ q)
    (hq : IsSelect0 l (rank0 l (p+1) + k) q) : ∃ e', skip0 bits e k = some e' ∧ e'.position < q := by
  have hl := hr.len
  rw [wordsFor_eq] at hl
  have hql : q < l.length := ((isSelect0_iff _ _ _).mp hq).1
  have hset : ∀ i, bitFn (l.set p false) i = (bitFn l i && decide (i ≠ p)) := by
    intro i
    unfold bitFn
    rw [List.getD_eq_getElem?_getD, List.getD_eq_getElem?_getD, List.getElem?_set]
    by_cases hi : p = i
    · rw [if_pos hi]; subst hi; simp; split <;> rfl
    · rw [if_neg hi]; have : i ≠ p := fun h => hi h.symm
      simp [this]
  have hg' : Good (l.set p false) e p := by
    refine ⟨by have := hg.lo; omega, by omega, fun i hi => ?_⟩
    rw [hg.buf i hi, hset]
    by_cases h1 : p + 1 ≤ 64*(e.position/64) + i
    · have h2 : p ≤ 64*(e.position/64) + i := by omega
      have h3 : 64*(e.position/64) + i ≠ p := by omega
      simp [h1, h2, h3]
    · by_cases h3 : 64*(e.position/64) + i = p
      · simp [h3]
      · have h2 : ¬ p ≤ 64*(e.position/64) + i := by omega
        simp [h1, h2]
  have hr0 : rank0 (l.set p false) p = rank0 l p := by
    rw [rank0_eq_cnt _ _ (by rw [List.length_set]; omega), rank0_eq_cnt _ _ (by omega)]
    apply cnt_congr; intro i hi; rw [hset]; have : i ≠ p := by omega
    simp [this]
  -- the number of zeros of the changed list before a later position
  have hcnt : ∀ i, p < i → cnt (fun j => !bitFn (l.set p false) j) i = cnt (fun j => !bitFn l j) (p+1) + cnt (fun j => !bitFn l (p+1+j)) (i - (p+1)) - cnt (fun j => !bitFn l j) (p+1) + cnt (fun j => !bitFn l j) p + 1 := by
    intro i hi
    have e1 := cnt_add (fun j => !bitFn (l.set p false) j) (p+1) (i-(p+1))
    rw [show p + 1 + (i-(p+1)) = i by omega, cnt_succ] at e1
    have e2 : cnt (fun j => !bitFn (l.set p false) j) p = cnt (fun j => !bitFn l j) p := by
      apply cnt_congr; intro j hj; rw [hset]; have : j ≠ p := by omega
      simp [this]
    have e3 : cnt (fun j => !bitFn (l.set p false) (p+1+j)) (i-(p+1)) = cnt (fun j => !bitFn l (p+1+j)) (i-(p+1)) := by
      apply cnt_congr; intro j hj; rw [hset]; have : p + 1 + j ≠ p := by omega
      simp [this]
    rw [e2, e3, hset] at e1
    simp at e1
    omega
  obtain ⟨q', hq'1, hq'2, hq'3⟩ : ∃ q', p ≤ q' ∧ q' < q ∧ IsSelect0 (l.set p false) (rank0 (l.set p false) p + k) q' := by
    have hq2 := hq.2
    rw [rank0_eq_cnt _ _ (by omega), rank0_eq_cnt _ _ (by omega)] at hq2
    have hsplit := cnt_add (fun j => !bitFn l j) (p+1) (q - (p+1))
    rw [show p + 1 + (q - (p+1)) = q by omega] at hsplit
    have hk : cnt (fun j => !bitFn l (p+1+j)) (q - (p+1)) = k := by omega
    have hc := hcnt q (by omega)
    have hex : ∃ i, i < q ∧ (!bitFn (l.set p false) i) = true ∧ cnt (fun j => !bitFn (l.set p false) j) i = cnt (fun j => !bitFn l j) p + k :=
      sel_exists (by omega)
    obtain ⟨i, i1, i2, i3⟩ := hex
    refine ⟨i, ?_, i1, ?_⟩
    · by_contra hlt
      have e2 : cnt (fun j => !bitFn (l.set p false) j) i = cnt (fun j => !bitFn l j) i := by
        apply cnt_congr; intro j hj; rw [hset]; have : j ≠ p := by omega
        simp [this]
      have e4 : (!bitFn l i) = true := by
        rw [hset] at i2; have : i ≠ p := by omega
        simpa [this] using i2
      have := cnt_lt_of_true (f := fun j => !bitFn l j) (show i < p by omega) e4
      omega
    · rw [isSelect0_iff, hr0, rank0_eq_cnt _ _ (by omega)]
      exact ⟨by rw [List.length_set]; omega, by simpa using i2, by rw [← cnt_not]; exact i3⟩
  obtain ⟨e', k1, _, k3⟩ := skip0_gen (bits := bits) (by rw [List.length_set]; omega) e p k q'
    (fun i hi => by rw [hr.bit, hset]; have : i ≠ p := by omega
                    simp [this]) hg' hpos hq'1 hq'3
  exact ⟨e', k1, by omega⟩

theorem run_good (hr : Repr bits l) (ops : List UnaryOp) : ∀ (e : UEnum) (c : Nat) (b : Bool) outs, UnaryRun l c ops outs →
    NoSkip0AfterNext b ops → Good l e c → (b = false → e.position = c) → run bits e ops = some outs := by
  induction ops with
  | nil => intro e c b outs h _ _ _; cases h; rfl
  | cons op ops ih =>
    intro e c b outs h hs hg hp
    cases h with
    | cons hstep hrest =>
    cases hstep with
    | next hq =>
      obtain ⟨e', k1, k2⟩ := next_good hr e c _ hg hq
      simp only [run, step, k1, Option.bind_eq_bind, Option.bind_some, pure]
      rw [ih e' _ true _ hrest hs k2 (by simp)]; rfl
    | skip hcq hq =>
      obtain ⟨e', k1, k2, k3⟩ := skip_good hr e c _ _ hg hcq hq
      simp only [run, step, k1, Option.bind_eq_bind, Option.bind_some, pure]
      rw [ih e' _ false _ hrest hs k2 (fun _ => k3)]; rfl
    | skipNoMove hcq hq =>
      simp only [run, step, skipNoMove_good hr e c _ _ hg hcq hq, Option.bind_eq_bind, Option.bind_some, pure]
      rw [ih e _ b _ hrest hs hg hp]; rfl
    | skip0 hcq hq =>
      obtain ⟨e', k1, k2, k3⟩ := skip0_good hr e c _ _ hg (hp hs.1) hcq hq
      simp only [run, step, k1, Option.bind_eq_bind, Option.bind_some, pure]
      rw [ih e' _ false _ hrest hs.2 k2 (fun _ => k3)]; rfl

theorem runPos_iff (hr : Repr bits l) (ops : List UnaryOp) : ∀ (e : UEnum) (c pos : Nat) (b : Bool) outs, UnaryRunPos l c pos ops outs →
    Good l e c → e.position = pos → (b = false → pos = c) → (b = true → pos + 1 = c) → (runPos bits e ops = some outs ↔ NoSkip0AfterNext b ops) := by
  induction ops with
  | nil => intro e c pos b outs h _ _ _ _; cases h; simp [runPos, NoSkip0AfterNext]
  | cons op ops ih =>
    intro e c pos b outs h hg hpos h0 h1
    cases h with
    | cons pos' hstep hp' hrest =>
    cases hstep with
    | next hq =>
      rename_i q outs'
      obtain ⟨e', k1, k2, k3⟩ := next_good' hr e c _ hg hq
      simp only at hp'
      have := ih e' _ pos' true _ hrest k2 (by omega) (by simp) (by omega)
      simp only [runPos, step, k1, Option.bind_eq_bind, Option.bind_some, pure, NoSkip0AfterNext, ← this]
      cases runPos bits e' ops <;> simp [k3]; omega
    | skip hcq hq =>
      obtain ⟨e', k1, k2, k3⟩ := skip_good hr e c _ _ hg hcq hq
      simp only at hp'
      have := ih e' _ pos' false _ hrest k2 (by omega) (by omega) (by simp)
      simp only [runPos, step, k1, Option.bind_eq_bind, Option.bind_some, pure, NoSkip0AfterNext, ← this]
      cases runPos bits e' ops <;> simp [k3]; omega
    | skipNoMove hcq hq =>
      simp only at hp'
      have := ih e _ pos' b _ hrest hg (by omega) (by rw [hp']; exact h0) (by rw [hp']; exact h1)
      simp only [runPos, step, skipNoMove_good hr e c _ _ hg hcq hq, Option.bind_eq_bind, Option.bind_some, pure, NoSkip0AfterNext, ← this]
      cases runPos bits e ops <;> simp; omega
    | skip0 hcq hq =>
      simp only at hp'
      cases b with
      | false =>
        obtain ⟨e', k1, k2, k3⟩ := skip0_good hr e c _ _ hg (by rw [hpos]; exact h0 rfl) hcq hq
        have := ih e' _ pos' false _ hrest k2 (by omega) (by omega) (by simp)
        simp only [runPos, step, k1, Option.bind_eq_bind, Option.bind_some, pure, NoSkip0AfterNext, true_and, ← this]
        cases runPos bits e' ops <;> simp [k3]; omega
      | true =>
        have h1 := h1 rfl
        subst h1
        obtain ⟨e', k1, k3⟩ := skip0_after_next hr e pos _ _ hg hpos hcq hq
        simp only [runPos, step, k1, Option.bind_eq_bind, Option.bind_some, pure, NoSkip0AfterNext]
        cases runPos bits e' ops <;> simp; omega

end UEnum
end Succinct
