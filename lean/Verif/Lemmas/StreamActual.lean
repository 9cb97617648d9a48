import Verif.Spec.StreamActual
import Verif.Props.MachineEnum

/-! `bit_vector::enumerator` in 64-bit arithmetic, for every history. -/
namespace Succinct
namespace Machine
open Spec Broadword
open Succinct.RSBitVector (bind_pure_some)
namespace Enum
variable {v : Succinct.BitVector} {l : List Bool}

/-- the buffer holds the bits of `[b, c)`, and `pos + avail` is `c` modulo `2^64`; `r` calls remain, `m` bounds the bits available -/
structure St (l : List Bool) (m r : Nat) (e : Enum) (s : StreamBuf) : Prop where
  pos : e.pos = W s.pos
  avail : e.avail = W s.c - W s.pos
  buf : ∀ i, e.buf.getLsbD i = (decide (s.b + i < s.c) && bitFn l (s.b + i))
  cb : s.c ≤ s.b + 64
  lo : s.pos ≤ s.c → s.c ≤ s.pos + m
  win : s.b < s.c → s.c ≤ l.length + 64
  hc : s.c < 2^64
  hp : s.pos ≤ s.c ∨ s.pos + 64 * r < 2^64

theorem new_st (p r : Nat) (hp : p < 2^64) : St l 63 r (new (W p)) ⟨p, p, p⟩ :=
  ⟨rfl, by show (0 : Word) = W p - W p; rw [BitVec.sub_self]; rfl, fun i => by simp [new], by simp, fun _ => by simp, fun h => absurd h (by simp),
    hp, Or.inl (Nat.le_refl _)⟩

theorem St.avail_lo {m r : Nat} {e : Enum} {s : StreamBuf} (h : St l m r e s) (hs : s.pos ≤ s.c) : e.avail.toNat = s.c - s.pos := by
  have := h.hc
  rw [h.avail, BitVec.toNat_sub, W_toNat _ h.hc, W_toNat _ (by omega)]; omega

theorem St.avail_hi {m r : Nat} {e : Enum} {s : StreamBuf} (h : St l m (r + 1) e s) (hs : s.c < s.pos) : 64 < e.avail.toNat := by
  have h1 := h.hp
  have := h.hc
  rw [h.avail, BitVec.toNat_sub, W_toNat _ h.hc, W_toNat _ (by omega)]; omega

theorem fillBuf_st (hr : Rep v l) (hf : BitVector.Fits v) (hl : l.length ≤ 2^63) (e : Enum) (p r : Nat) (hp : p < 2^64) (he : e.pos = W p) :
    (p < l.length → ∃ e', fillBuf (BitVector.enc v) e = some e' ∧ St l 64 r e' ⟨p, p, p + 64⟩) ∧
      (l.length ≤ p → fillBuf (BitVector.enc v) e = none) := by
  have e0 : fillBuf (BitVector.enc v) e = (v.getWord p).bind fun w => some ⟨e.pos, w, 64⟩ := by
    show (BitVector.getWord (BitVector.enc v) e.pos).bind _ = _
    rw [BitVector.getWord_eq v hf, he, W_toNat _ hp]; rfl
  rw [e0]
  constructor
  · intro hlt
    obtain ⟨x, ex, hx⟩ := Succinct.BitVector.getWord_eq hr p hlt
    rw [ex]
    refine ⟨_, rfl, he, ?_, ?_, Nat.le_refl _, fun _ => Nat.le_refl _, fun _ => by simp; omega, by simp; omega, Or.inl (by simp)⟩
    · show (64 : Word) = W (p + 64) - W p
      rw [← W_sub _ _ (by omega), Nat.add_sub_cancel_left]; rfl
    · intro i
      show x.getLsbD i = _
      by_cases hi : i < 64
      · rw [hx i hi]; simp [hi]
      · rw [BitVec.getLsbD_of_ge _ _ (by omega)]; simp; omega
  · intro hge
    unfold Succinct.BitVector.getWord assertP
    rw [if_neg (by rw [hr.size]; omega)]; rfl

/-- the refill before `next` and `take` -/
theorem ready (hr : Rep v l) (hf : BitVector.Fits v) (hl : l.length ≤ 2^63) (e : Enum) (s : StreamBuf) (r k : Nat) (hk : k ≤ 64)
    (h : St l 63 (r + 1) e s) (c : Prop) [Decidable c] (hc : c ↔ e.avail.toNat < k) :
    (∀ s', StreamFill l k s s' → ∃ e', (if c then fillBuf (BitVector.enc v) e else some e) = some e' ∧ St l 64 (r + 1) e' s' ∧
      (s'.pos ≤ s'.c → s'.pos + k ≤ s'.c ∧ s'.c ≤ s'.pos + k + 63)) ∧
    (∀ e', (if c then fillBuf (BitVector.enc v) e else some e) = some e' → ∃ s', StreamFill l k s s') := by
  have h1 := h.hc
  have hcond : c ↔ s.pos ≤ s.c ∧ s.c < s.pos + k := by
    rw [hc]
    by_cases hs : s.pos ≤ s.c
    · rw [h.avail_lo hs]; omega
    · have := h.avail_hi (by omega); omega
  constructor
  · intro s' hf'
    cases hf' with
    | fill h2 h3 h4 =>
      rw [if_pos (hcond.2 ⟨h2, h3⟩)]
      obtain ⟨e', k1, k2⟩ := (fillBuf_st hr hf hl e s.pos (r + 1) (by omega) h.pos).1 h4
      exact ⟨e', k1, k2, fun _ => by show s.pos + k ≤ s.pos + 64 ∧ s.pos + 64 ≤ s.pos + k + 63; omega⟩
    | keep h2 =>
      rw [if_neg (by rw [hcond]; exact h2)]
      exact ⟨e, rfl, { h with lo := fun x => by have := h.lo x; omega }, fun x => by have := h.lo x; omega⟩
  · intro e' he
    by_cases hd : c
    · obtain ⟨h2, h3⟩ := hcond.1 hd
      rw [if_pos hd] at he
      by_cases hlt : s.pos < l.length
      · exact ⟨_, .fill h2 h3 hlt⟩
      · rw [(fillBuf_st hr hf hl e s.pos (r + 1) (by omega) h.pos).2 (by omega)] at he
        cases he
    · exact ⟨s, .keep (by rw [← hcond]; exact hd)⟩

theorem bits_bitFn (s : StreamBuf) (i : Nat) : bitFn (s.bits l) i = (decide (s.b + i < s.c) && bitFn l (s.b + i)) := by
  unfold StreamBuf.bits
  rw [bitFn_drop]
  exact bitFn_take ..

/-- moving on by `k` bits; the buffer keeps those from `b'` on -/
theorem St.move {m m' r r' : Nat} {e : Enum} {s : StreamBuf} (h : St l m' r' e s) (k sh : Nat) (hlo : s.pos + k ≤ s.c → s.c ≤ s.pos + k + m)
    (hhi : s.pos + k ≤ s.c ∨ s.pos + k + 64 * r < 2^64) :
    St l m r ⟨e.pos + W k, e.buf >>> sh, e.avail - W k⟩ ⟨s.pos + k, s.b + sh, s.c⟩ := by
  have h1 := h.cb; have h3 := h.win
  refine ⟨?_, ?_, ?_, by simp; omega, fun x => hlo x, fun x => h3 (by simp at x; omega), h.hc, hhi⟩
  · show e.pos + W k = W (s.pos + k)
    rw [h.pos, W_add]
  · show e.avail - W k = W s.c - W (s.pos + k)
    rw [h.avail, W_add]
    generalize W s.c = x; generalize W s.pos = y; generalize W k = z
    bv_omega
  · intro i
    show (e.buf >>> sh).getLsbD i = (decide (s.b + sh + i < s.c) && bitFn l (s.b + sh + i))
    rw [BitVec.getLsbD_ushiftRight, h.buf, Nat.add_assoc]

theorem St.small {m r : Nat} {e : Enum} {s : StreamBuf} (h : St l m r e s) : e.pos.toNat = s.pos := by
  have h1 := h.hp; have h2 := h.hc
  rw [h.pos, W_toNat _ (by omega)]

theorem next_st (hr : Rep v l) (hf : BitVector.Fits v) (hl : l.length ≤ 2^63) (e : Enum) (s : StreamBuf) (r : Nat) (h : St l 63 (r + 1) e s) :
    (∀ s', StreamFill l 1 s s' → ∃ e', next (BitVector.enc v) e = some ((s'.bits l).headD false, e') ∧ St l 63 r e' ⟨s'.pos + 1, s'.b + 1, s'.c⟩) ∧
    (∀ x, next (BitVector.enc v) e = some x → ∃ s', StreamFill l 1 s s') := by
  obtain ⟨h1, h2⟩ := ready hr hf hl e s r 1 (by decide) h (e.avail = 0) (by
    constructor
    · rintro h; rw [h]; decide
    · intro h; apply BitVec.eq_of_toNat_eq; show _ = 0; omega)
  constructor
  · intro s' hs
    obtain ⟨e', k1, k2, k3⟩ := h1 s' hs
    rw [next_unfold, k1, bind_pure_some, shr_eq _ _ (by decide), bind_pure_some]
    refine ⟨_, ?_, k2.move 1 1 (fun x => by have := k3 (by omega); omega) ?_⟩
    · show some (e'.buf.getLsbD 0, _) = some _
      rw [k2.buf, ← bits_bitFn]
      congr 2
      cases s'.bits l <;> rfl
    · have := k2.hp
      by_cases hs' : s'.pos ≤ s'.c
      · have := k3 hs'; omega
      · omega
  · intro x hx
    rw [next_unfold] at hx
    simp only [Option.bind_eq_bind, Option.bind_eq_some_iff] at hx
    obtain ⟨e', k1, _⟩ := hx
    exact h2 e' k1

theorem take_st (hr : Rep v l) (hf : BitVector.Fits v) (hl : l.length ≤ 2^63) (e : Enum) (s : StreamBuf) (r : Nat) (k : Word) (h : St l 63 (r + 1) e s) :
    (k.toNat ≤ 64 → ∀ s', StreamFill l k.toNat s s' → ∃ w e', take (BitVector.enc v) e k = some (w, e') ∧
      w.toNat = bitsToNat ((s'.bits l).take k.toNat) ∧ St l 63 r e' ⟨s'.pos + k.toNat, if k.toNat = 64 then s'.b else s'.b + k.toNat, s'.c⟩) ∧
    (∀ x, take (BitVector.enc v) e k = some x → k.toNat ≤ 64 ∧ ∃ s', StreamFill l k.toNat s s') := by
  constructor
  · intro hk s' hs
    obtain ⟨h1, _⟩ := ready hr hf hl e s r k.toNat hk h (e.avail < k) (BitVec.lt_def ..)
    obtain ⟨e', k1, k2, k3⟩ := h1 s' hs
    have hmask : ∀ x : Word, (∀ i, x.getLsbD i = (decide (i < k.toNat) && (decide (s'.b + i < s'.c) && bitFn l (s'.b + i)))) →
        x.toNat = bitsToNat ((s'.bits l).take k.toNat) := by
      intro x hx
      apply toNat_eq_bitsToNat
      intro i; rw [hx, bitFn_take, bits_bitFn]
    have hlo : s'.pos + k.toNat ≤ s'.c → s'.c ≤ s'.pos + k.toNat + 63 := fun x => (k3 (by omega)).2
    have hhi : s'.pos + k.toNat ≤ s'.c ∨ s'.pos + k.toNat + 64 * r < 2^64 := by
      have := k2.hp
      by_cases hs' : s'.pos ≤ s'.c
      · have := k3 hs'; omega
      · omega
    rw [take_unfold, k1, bind_pure_some]
    by_cases h64 : k.toNat = 64
    · have hk64 : k = 64 := BitVec.eq_of_toNat_eq h64
      rw [if_pos h64]
      unfold takeAvail
      rw [if_neg (by simpa using hk64)]
      have hm := k2.move k.toNat 0 hlo hhi
      rw [W_of] at hm
      refine ⟨_, _, rfl, hmask _ fun i => ?_, by simpa using hm⟩
      rw [k2.buf]
      by_cases hi : i < k.toNat
      · simp [hi]
      · have := k2.cb
        have : ¬ s'.b + i < s'.c := by omega
        simp [this]
    · rw [if_neg h64]
      unfold takeAvail
      rw [if_pos (by rintro rfl; exact h64 rfl), shl_eq _ _ (by omega)]
      simp only [Option.bind_eq_bind, Option.bind_some]
      rw [shr_eq _ _ (by omega), Option.bind_some]
      have hm := k2.move k.toNat k.toNat hlo hhi
      rw [W_of] at hm
      refine ⟨_, _, rfl, hmask _ fun i => ?_, hm⟩
      rw [BitVec.getLsbD_and, Succinct.Enum.mask_bit' _ (by omega), k2.buf, Bool.and_comm]
  · intro x hx
    rw [take_unfold] at hx
    simp only [Option.bind_eq_bind, Option.bind_eq_some_iff] at hx
    obtain ⟨e', k1, k4⟩ := hx
    have hk : k.toNat ≤ 64 := by
      unfold takeAvail at k4
      split at k4
      · by_cases hk : k.toNat < 64
        · omega
        · unfold shl at k4
          rw [if_neg hk] at k4
          cases k4
      · rename_i hk
        rw [Classical.not_not.1 hk]; decide
    exact ⟨hk, (ready hr hf hl e s r k.toNat hk h (e.avail < k) (BitVec.lt_def ..)).2 e' k1⟩

theorem St.buf_zero {m r : Nat} {e : Enum} {s : StreamBuf} (h : St l m r e s) :
    e.buf = 0 ↔ ∀ t, s.b ≤ t → t < s.c → l[t]? ≠ some true := by
  have hc := h.cb
  constructor
  · intro hb t h1 h2 h3
    have := h.buf (t - s.b)
    rw [hb, show s.b + (t - s.b) = t by omega, (bitFn_eq_true l t).2 h3] at this
    simp [h2] at this
  · intro hn
    apply BitVec.eq_of_getLsbD_eq
    intro i hi
    rw [h.buf]
    by_cases h1 : s.b + i < s.c
    · have := hn (s.b + i) (by omega) h1
      rw [Ne, ← bitFn_eq_true] at this
      simpa [h1] using this
    · simp [h1]

theorem St.lsb {m r : Nat} {e : Enum} {s : StreamBuf} (h : St l m r e s) {t : Nat} (ht : IsSucc true l s.b t) (htc : t < s.c) :
    Broadword.lsb e.buf = some (t - s.b) := by
  have h1 := ht.1; have hc := h.cb
  rw [lsb_some]
  refine ⟨by omega, ?_, fun j hj => ?_⟩
  · rw [h.buf, show s.b + (t - s.b) = t by omega, (bitFn_eq_true l t).2 ht.2.1]; simp [htc]
  · have := ht.2.2 (s.b + j) (by omega) (by omega)
    rw [Ne, ← bitFn_eq_true] at this
    rw [h.buf]; simp [this]

theorem loop_found (hr : Rep v l) (hf : BitVector.Fits v) (hl : l.length ≤ 2^63) (q r : Nat) (fuel : Nat) : ∀ (e : Enum) (p : Nat) (zs : Word),
    St l 64 r e ⟨p, p, p + 64⟩ → IsSucc true l p q → (q - p) / 64 ≤ fuel →
    ∃ e', skipZerosLoop (BitVector.enc v) fuel e zs = some (e', zs + W (64 * ((q - p) / 64))) ∧
      St l 64 r e' ⟨p + 64 * ((q - p) / 64), p + 64 * ((q - p) / 64), p + 64 * ((q - p) / 64) + 64⟩ := by
  have here : ∀ (fuel : Nat) (e : Enum) (p : Nat) (zs : Word), St l 64 r e ⟨p, p, p + 64⟩ → IsSucc true l p q → (q - p) / 64 = 0 →
      ∃ e', skipZerosLoop (BitVector.enc v) fuel e zs = some (e', zs + W (64 * ((q - p) / 64))) ∧
      St l 64 r e' ⟨p + 64 * ((q - p) / 64), p + 64 * ((q - p) / 64), p + 64 * ((q - p) / 64) + 64⟩ := by
    intro fuel e p zs h hq h0
    have h1 := hq.1
    have hne : e.buf ≠ 0 := fun hb => h.buf_zero.1 hb q h1 (by show q < p + 64; omega) hq.2.1
    unfold skipZerosLoop
    rw [if_neg hne, h0]
    exact ⟨e, by simp, by simpa using h⟩
  induction fuel with
  | zero => intro e p zs h hq h0; exact here 0 e p zs h hq (by omega)
  | succ fuel ih =>
    intro e p zs h hq hfu
    by_cases h0 : (q - p) / 64 = 0
    · exact here _ e p zs h hq h0
    · have h1 := hq.1
      obtain ⟨h2, _⟩ := List.getElem?_eq_some_iff.1 hq.2.1
      have hz : e.buf = 0 := h.buf_zero.2 fun t h1 h2 => hq.2.2 t h1 (by have h2 : t < p + 64 := h2; omega)
      have hav : e.avail = W 64 := by rw [h.avail, ← W_sub _ _ (by simp)]; simp
      have hpos : e.pos + e.avail = W (p + 64) := by rw [h.pos, hav, ← W_add]
      obtain ⟨e1, k1, k2⟩ := (fillBuf_st hr hf hl ⟨e.pos + e.avail, e.buf, 0⟩ (p + 64) r (by omega) hpos).1 (by omega)
      have hd : (q - p) / 64 = (q - (p + 64)) / 64 + 1 := by omega
      obtain ⟨e2, k3, k4⟩ := ih e1 (p + 64) (zs + e.avail) k2 ⟨by omega, hq.2.1, fun t a b => hq.2.2 t (by omega) b⟩ (by omega)
      unfold skipZerosLoop
      rw [if_pos hz, k1]
      refine ⟨e2, ?_, ?_⟩
      · show skipZerosLoop _ fuel e1 _ = _
        rw [k3, hav, hd, Nat.mul_add, Nat.add_comm (64 * _) (64 * 1), W_add (64 * 1), ← BitVec.add_assoc]
      · rw [hd]
        rw [show p + 64 + 64 * ((q - (p + 64)) / 64) = p + 64 * ((q - (p + 64)) / 64 + 1) by omega] at k4
        exact k4

theorem loop_none (hr : Rep v l) (hf : BitVector.Fits v) (hl : l.length ≤ 2^63) (r : Nat) (fuel : Nat) : ∀ (e : Enum) (p : Nat) (zs : Word) x,
    St l 64 r e ⟨p, p, p + 64⟩ → skipZerosLoop (BitVector.enc v) fuel e zs = some x → ∃ t, p ≤ t ∧ l[t]? = some true := by
  induction fuel with
  | zero =>
    intro e p zs x h hx
    unfold skipZerosLoop at hx
    by_cases hb : e.buf = 0
    · rw [if_pos hb] at hx; cases hx
    · rw [h.buf_zero] at hb
      simp only [Classical.not_forall, Classical.not_not] at hb
      obtain ⟨t, h1, _, h2⟩ := hb
      exact ⟨t, h1, h2⟩
  | succ fuel ih =>
    intro e p zs x h hx
    unfold skipZerosLoop at hx
    by_cases hb : e.buf = 0
    · rw [if_pos hb] at hx
      simp only [Option.bind_eq_bind, Option.bind_eq_some_iff] at hx
      obtain ⟨e1, k1, k2⟩ := hx
      have hc := h.hc
      have hav : e.avail = W 64 := by rw [h.avail, ← W_sub _ _ (by simp)]; simp
      have hpos : e.pos + e.avail = W (p + 64) := by rw [h.pos, hav, ← W_add]
      obtain ⟨f1, f2⟩ := fillBuf_st hr hf hl ⟨e.pos + e.avail, e.buf, 0⟩ (p + 64) r hc hpos
      by_cases hlt : p + 64 < l.length
      · obtain ⟨e2, g1, g2⟩ := f1 hlt
        rw [k1] at g1; cases g1
        obtain ⟨t, t1, t2⟩ := ih e1 (p + 64) _ x g2 k2
        exact ⟨t, by omega, t2⟩
      · rw [f2 (by omega)] at k1; cases k1
    · rw [h.buf_zero] at hb
      simp only [Classical.not_forall, Classical.not_not] at hb
      obtain ⟨t, h1, _, h2⟩ := hb
      exact ⟨t, h1, h2⟩

theorem exists_succ (p t : Nat) (h : p ≤ t) (ht : l[t]? = some true) : ∃ q, IsSucc true l p q ∧ q ≤ t := by
  induction t using Nat.strongRecOn with
  | _ t ih =>
    by_cases hm : ∀ s, p ≤ s → s < t → l[s]? ≠ some true
    · exact ⟨t, ⟨h, ht, hm⟩, Nat.le_refl _⟩
    · simp only [Classical.not_forall, Classical.not_not] at hm
      obtain ⟨s, h1, h2, h3⟩ := hm
      obtain ⟨q, k1, k2⟩ := ih s h2 h1 h3
      exact ⟨q, k1, by omega⟩

theorem skipZeros_unfold (v : BitVector) (e : Enum) : skipZeros v e = (skipZerosLoop v (v.bits.length + 2) e 0).bind fun x =>
    (Broadword.lsb x.1.buf).bind fun n => (shr x.1.buf n).bind fun b => (shr b 1).bind fun b =>
      some (x.2 + W n, ⟨x.1.pos + (W n + 1), b, x.1.avail - (W n + 1)⟩) := rfl

/-- the end of `skip_zeros`, once the buffer holds a one -/
theorem skip_end {m r r' : Nat} {e : Enum} {s : StreamBuf} (h : St l m r' e s) (zs : Word) {t : Nat} (ht : IsSucc true l s.b t) (htc : t < s.c)
    (hlo : s.pos + (t - s.b + 1) ≤ s.c → s.c ≤ s.pos + (t - s.b + 1) + 63)
    (hhi : s.pos + (t - s.b + 1) ≤ s.c ∨ s.pos + (t - s.b + 1) + 64 * r < 2^64) :
    ∃ e', ((Broadword.lsb e.buf).bind fun n => (shr e.buf n).bind fun b => (shr b 1).bind fun b =>
      some (zs + W n, (⟨e.pos + (W n + 1), b, e.avail - (W n + 1)⟩ : Enum))) = some (zs + W (t - s.b), e') ∧
      St l 63 r e' ⟨s.pos + (t - s.b + 1), t + 1, s.c⟩ := by
  have h1 := ht.1; have hc := h.cb
  rw [h.lsb ht htc, Option.bind_some, shr_eq _ _ (by omega), Option.bind_some, shr_eq _ _ (by decide), Option.bind_some]
  have := h.move (t - s.b + 1) (t - s.b + 1) hlo hhi
  rw [W_add, BitVec.shiftRight_add, show s.b + (t - s.b + 1) = t + 1 by omega] at this
  exact ⟨_, rfl, this⟩

theorem skip_st (hr : Rep v l) (hf : BitVector.Fits v) (hl : l.length ≤ 2^63) (e : Enum) (s : StreamBuf) (r : Nat) (hrr : r ≤ 2^56)
    (h : St l 63 (r + 1) e s) (o : EnumOut) (s' : StreamBuf) (ha : StreamAct l s .skipZeros o s') :
    ∃ w e', skipZeros (BitVector.enc v) e = some (w, e') ∧ o = .val w.toNat ∧ St l 63 r e' s' := by
  have hb := BitVector.len_le hf
  have h1 := h.hp; have h2 := h.hc; have h3 := h.cb
  rw [skipZeros_unfold]
  cases ha with
  | @skipIn t ht htc =>
    have h4 := ht.1
    have hne : e.buf ≠ 0 := fun hb => h.buf_zero.1 hb t h4 htc ht.2.1
    have hw := h.win (by omega)
    have e0 : skipZerosLoop (BitVector.enc v) ((BitVector.enc v).bits.length + 2) e 0 = some (e, 0) := by
      unfold skipZerosLoop; rw [if_neg hne]
    rw [e0, Option.bind_some]
    obtain ⟨e', k1, k2⟩ := skip_end (r := r) h 0 ht htc (fun x => by have := h.lo (by omega); omega) (by omega)
    refine ⟨_, e', k1, ?_, k2⟩
    rw [show (0 : Word) + W (t - s.b) = W (t - s.b) from BitVec.zero_add _, W_toNat _ (by omega)]
  | @skipOut q hn hq =>
    have h4 := hq.1
    obtain ⟨h5, _⟩ := List.getElem?_eq_some_iff.1 hq.2.1
    have hz : e.buf = 0 := h.buf_zero.2 hn
    have hpos : e.pos + e.avail = W s.c := by
      rw [h.pos, h.avail]; generalize W s.c = x; generalize W s.pos = y; bv_omega
    obtain ⟨e1, k1, k2⟩ := (fillBuf_st hr hf hl ⟨e.pos + e.avail, e.buf, 0⟩ s.c r h2 hpos).1 (by omega)
    have hlen : l.length ≤ 64 * (BitVector.enc v).bits.length := by
      have := hr.len
      show _ ≤ 64 * v.bits.length
      omega
    obtain ⟨e2, k3, k4⟩ := loop_found hr hf hl q r ((BitVector.enc v).bits.length + 1) e1 s.c (0 + e.avail) k2 hq (by omega)
    have e0 : skipZerosLoop (BitVector.enc v) ((BitVector.enc v).bits.length + 2) e 0 =
        some (e2, 0 + e.avail + W (64 * ((q - s.c) / 64))) := by
      rw [← k3]
      conv => lhs; unfold skipZerosLoop
      rw [if_pos hz, k1]; rfl
    rw [e0, Option.bind_some]
    obtain ⟨e3, k5, k6⟩ := skip_end (r := r) k4 (0 + e.avail + W (64 * ((q - s.c) / 64))) (t := q)
      ⟨by show s.c + _ ≤ q; omega, hq.2.1, fun t a b => hq.2.2 t (by have a : s.c + 64 * ((q - s.c) / 64) ≤ t := a; omega) b⟩
      (by show q < s.c + _ + 64; omega) (fun _ => by dsimp only; omega) (by dsimp only; omega)
    refine ⟨_, e3, k5, ?_, ?_⟩
    · have hd : W q = W s.c + W (64 * ((q - s.c) / 64)) + W (q - (s.c + 64 * ((q - s.c) / 64))) := by
        rw [← W_add, ← W_add]; congr 1; omega
      have hw : 0 + e.avail + W (64 * ((q - s.c) / 64)) + W (q - (s.c + 64 * ((q - s.c) / 64))) = W q - W s.pos := by
        rw [hd, h.avail]
        generalize W s.c = a; generalize W s.pos = b; generalize W (64 * ((q - s.c) / 64)) = c
        generalize W (q - (s.c + 64 * ((q - s.c) / 64))) = d
        bv_omega
      show _ = EnumOut.val (0 + e.avail + W (64 * ((q - s.c) / 64)) + W (q - (s.c + 64 * ((q - s.c) / 64)))).toNat
      rw [hw, BitVec.toNat_sub, W_toNat _ (by omega), W_toNat _ (by omega)]
      congr 1
      omega
    · have : s.c + 64 * ((q - s.c) / 64) + (q - (s.c + 64 * ((q - s.c) / 64)) + 1) = q + 1 := by omega
      simp only [] at k6
      rw [this] at k6
      rw [show s.c + 64 * ((q - s.c) / 64 + 1) = s.c + 64 * ((q - s.c) / 64) + 64 by omega]
      exact k6

theorem skip_exists (hr : Rep v l) (hf : BitVector.Fits v) (hl : l.length ≤ 2^63) (e : Enum) (s : StreamBuf) (r : Nat)
    (h : St l 63 (r + 1) e s) (x) (hx : skipZeros (BitVector.enc v) e = some x) : ∃ o s', StreamAct l s .skipZeros o s' := by
  have h2 := h.hc
  rw [skipZeros_unfold] at hx
  obtain ⟨y, hy, _⟩ := Option.bind_eq_some_iff.1 hx
  by_cases hz : e.buf = 0
  · unfold skipZerosLoop at hy
    rw [if_pos hz] at hy
    simp only [Option.bind_eq_bind, Option.bind_eq_some_iff] at hy
    obtain ⟨e1, k1, k2⟩ := hy
    have hpos : e.pos + e.avail = W s.c := by
      rw [h.pos, h.avail]; generalize W s.c = x; generalize W s.pos = y; bv_omega
    obtain ⟨f1, f2⟩ := fillBuf_st hr hf hl ⟨e.pos + e.avail, e.buf, 0⟩ s.c r h2 hpos
    by_cases hlt : s.c < l.length
    · obtain ⟨e2, g1, g2⟩ := f1 hlt
      rw [k1] at g1; cases g1
      obtain ⟨t, t1, t2⟩ := loop_none hr hf hl r _ e1 s.c _ _ g2 k2
      obtain ⟨q, hq, _⟩ := exists_succ s.c t t1 t2
      exact ⟨_, _, .skipOut (h.buf_zero.1 hz) hq⟩
    · rw [f2 (by omega)] at k1; cases k1
  · rw [h.buf_zero] at hz
    simp only [Classical.not_forall, Classical.not_not] at hz
    obtain ⟨t, t1, t3, t2⟩ := hz
    obtain ⟨q, hq, hqt⟩ := exists_succ s.b t t1 t2
    exact ⟨_, _, .skipIn hq (by omega)⟩

theorem step_st (hr : Rep v l) (hf : BitVector.Fits v) (hl : l.length ≤ 2^63) (e : Enum) (s : StreamBuf) (r : Nat) (hrr : r ≤ 2^56)
    (h : St l 63 (r + 1) e s) (op : EnumCall) (o : EnumOut) (s' : StreamBuf) (ha : StreamAct l s op.op o s') :
    ∃ w e', step (BitVector.enc v) e op = some (w, e') ∧ o = w.out ∧ St l 63 r e' s' := by
  cases op with
  | next =>
    cases ha with
    | @next s1 hs =>
      obtain ⟨e', k1, k2⟩ := (next_st hr hf hl e s r h).1 s1 hs
      exact ⟨_, e', by show (next _ e).bind _ = _; rw [k1]; rfl, rfl, k2⟩
  | take n =>
    cases ha with
    | @take s1 _ hk hs =>
      obtain ⟨w, e', k1, k2, k3⟩ := (take_st hr hf hl e s r n h).1 hk s1 hs
      exact ⟨.val w, e', by show (take _ e n).bind _ = _; rw [k1]; rfl, congrArg EnumOut.val k2.symm, k3⟩
  | skipZeros =>
    obtain ⟨w, e', k1, k2, k3⟩ := skip_st hr hf hl e s r hrr h o s' ha
    exact ⟨.val w, e', by show (skipZeros _ e).bind _ = _; rw [k1]; rfl, k2, k3⟩

theorem step_exists (hr : Rep v l) (hf : BitVector.Fits v) (hl : l.length ≤ 2^63) (e : Enum) (s : StreamBuf) (r : Nat)
    (h : St l 63 (r + 1) e s) (op : EnumCall) (x) (hx : step (BitVector.enc v) e op = some x) : ∃ o s', StreamAct l s op.op o s' := by
  cases op with
  | next =>
    obtain ⟨y, hy, _⟩ := Option.bind_eq_some_iff.1 hx
    obtain ⟨s', hs⟩ := (next_st hr hf hl e s r h).2 y hy
    exact ⟨_, _, .next hs⟩
  | take n =>
    obtain ⟨y, hy, _⟩ := Option.bind_eq_some_iff.1 hx
    obtain ⟨hk, s', hs⟩ := (take_st hr hf hl e s r n h).2 y hy
    exact ⟨_, _, .take hk hs⟩
  | skipZeros =>
    obtain ⟨y, hy, _⟩ := Option.bind_eq_some_iff.1 hx
    exact skip_exists hr hf hl e s r h y hy

/-- the words returned, as numbers -/
def view (r : List (EnumRet × Word)) : List (EnumOut × Nat) := r.map fun x => (x.1.out, x.2.toNat)

theorem run_act (hr : Rep v l) (hf : BitVector.Fits v) (hl : l.length ≤ 2^63) (ops : List EnumCall) : ∀ (e : Enum) (s : StreamBuf),
    ops.length ≤ 2^56 → St l 63 ops.length e s → ∀ outs,
    (run (BitVector.enc v) e ops).map view = some outs ↔ StreamActRun l s (ops.map (·.op)) outs := by
  induction ops with
  | nil =>
    intro e s _ h outs
    constructor
    · intro h; cases h; exact .nil
    · intro h; cases h; rfl
  | cons op ops ih =>
    intro e s hlen h outs
    rw [List.length_cons] at hlen h
    constructor
    · intro hx
      cases hst : step (BitVector.enc v) e op with
      | none => unfold run at hx; rw [hst] at hx; cases hx
      | some y =>
        obtain ⟨o, s', ha⟩ := step_exists hr hf hl e s _ h op y hst
        obtain ⟨w, e', k1, k2, k3⟩ := step_st hr hf hl e s _ (by omega) h op o s' ha
        unfold run at hx
        rw [k1, bind_pure_some] at hx
        cases hrun : run (BitVector.enc v) e' ops with
        | none => simp only [hrun] at hx; cases hx
        | some rs =>
          simp only [hrun] at hx
          have hx := Option.some.inj hx
          have := (ih e' s' (by omega) k3 (view rs)).1 (by rw [hrun]; rfl)
          rw [← hx]
          show StreamActRun l s _ ((w.out, e'.pos.toNat) :: view rs)
          rw [← k2, k3.small]
          exact .cons ha this
    · intro hx
      cases hx with
      | @cons _ _ o s' _ outs' ha hrest =>
        obtain ⟨w, e', k1, k2, k3⟩ := step_st hr hf hl e s _ (by omega) h op o s' ha
        have := (ih e' s' (by omega) k3 outs').2 hrest
        obtain ⟨rs, hrun, hv⟩ := Option.map_eq_some_iff.1 this
        unfold run
        rw [k1, bind_pure_some]
        simp only [hrun]
        show some ((w.out, e'.pos.toNat) :: view rs) = _
        rw [hv, ← k2, k3.small]

end Enum
end Machine
end Succinct
