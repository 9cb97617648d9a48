import Verif.Lemmas.BpFind

/-! Range minimum over the excess: words, blocks and superblocks. -/
namespace Succinct
open Broadword Bp
open RSBitVector (bind_pure_some)

/-- `p'` is the candidate `p` updated with the leftmost minimum of `g` over `[lo, hi)`, if that is
strictly smaller -/
def Upd (g : Nat → Int) (lo hi : Nat) (p p' : Int × Nat) : Prop :=
  (p' = p ∧ ∀ q, lo ≤ q → q < hi → p.1 ≤ g q) ∨
  (p'.1 < p.1 ∧ lo ≤ p'.2 ∧ p'.2 < hi ∧ g p'.2 = p'.1 ∧ (∀ q, lo ≤ q → q < hi → p'.1 ≤ g q) ∧
    ∀ q, lo ≤ q → q < p'.2 → p'.1 < g q)

theorem Upd.refl (g : Nat → Int) (lo : Nat) (p : Int × Nat) : Upd g lo lo p p :=
  Or.inl ⟨rfl, fun q h1 h2 => by omega⟩

theorem Upd.le {g : Nat → Int} {lo hi : Nat} {p p' : Int × Nat} (h : Upd g lo hi p p') : p'.1 ≤ p.1 := by
  rcases h with ⟨h, _⟩ | ⟨h, _⟩
  · rw [h]
  · omega

theorem Upd.lower {g : Nat → Int} {lo hi : Nat} {p p' : Int × Nat} (h : Upd g lo hi p p') : ∀ q, lo ≤ q → q < hi → p'.1 ≤ g q := by
  rcases h with ⟨h, h'⟩ | ⟨_, _, _, _, h, _⟩
  · rw [h]; exact h'
  · exact h

theorem Upd.trans {g : Nat → Int} {lo mid mid' hi : Nat} {p p' p'' : Int × Nat} (h : Upd g lo mid p p') (h' : Upd g mid' hi p' p'')
    (hl : lo ≤ mid') (hm : mid' ≤ mid) : Upd g lo (max mid hi) p p'' := by
  have hle := h.le
  have hlow := h.lower
  rcases h' with ⟨e, a⟩ | ⟨a1, a2, a3, a4, a5, a6⟩
  · subst e
    rcases h with ⟨e, b⟩ | ⟨b1, b2, b3, b4, b5, b6⟩
    · subst e
      left
      refine ⟨rfl, fun q h1 h2 => ?_⟩
      rcases Nat.lt_or_ge q mid with hh | hh
      · exact b q h1 hh
      · exact a q (by omega) (by omega)
    · right
      refine ⟨b1, b2, by omega, b4, fun q h1 h2 => ?_, b6⟩
      rcases Nat.lt_or_ge q mid with hh | hh
      · exact b5 q h1 hh
      · exact a q (by omega) (by omega)
  · right
    refine ⟨by omega, by omega, by omega, a4, fun q h1 h2 => ?_, fun q h1 h2 => ?_⟩
    · rcases Nat.lt_or_ge q mid with hh | hh
      · have := hlow q h1 hh; omega
      · exact a5 q (by omega) (by omega)
    · rcases Nat.lt_or_ge q mid with hh | hh
      · have := hlow q h1 hh; omega
      · exact a6 q (by omega) (by omega)

theorem Upd.congr {g g' : Nat → Int} {lo hi : Nat} {p p' : Int × Nat} (h : Upd g lo hi p p')
    (hg : ∀ q, lo ≤ q → q < hi → g q = g' q) : Upd g' lo hi p p' := by
  rcases h with ⟨e, b⟩ | ⟨b1, b2, b3, b4, b5, b6⟩
  · left; exact ⟨e, fun q h1 h2 => by rw [← hg q h1 h2]; exact b q h1 h2⟩
  · right
    exact ⟨b1, b2, b3, by rw [← hg _ b2 b3]; exact b4, fun q h1 h2 => by rw [← hg q h1 h2]; exact b5 q h1 h2,
      fun q h1 h2 => by rw [← hg q h1 (by omega)]; exact b6 q h1 h2⟩

/-- positions after `mid` where `g` is larger than at `mid` do not matter -/
theorem Upd.cut {g : Nat → Int} {lo mid hi : Nat} {p p' : Int × Nat} (h : Upd g lo hi p p') (h1 : lo ≤ mid) (h2 : mid < hi)
    (hg : ∀ q, mid < q → q < hi → g mid < g q) : Upd g lo (mid+1) p p' := by
  rcases h with ⟨e, b⟩ | ⟨b1, b2, b3, b4, b5, b6⟩
  · left; exact ⟨e, fun q h3 h4 => b q h3 (by omega)⟩
  · right
    refine ⟨b1, b2, ?_, b4, fun q h3 h4 => b5 q h3 (by omega), b6⟩
    by_contra hh
    have := hg p'.2 (by omega) b3
    have := b5 mid h1 h2
    omega

theorem Upd.single (g : Nat → Int) (k : Nat) (p : Int × Nat) :
    Upd g k (k+1) p (if g k < p.1 then (g k, k) else p) := by
  by_cases h : g k < p.1
  · rw [if_pos h]; right
    exact ⟨h, Nat.le_refl _, Nat.lt_succ_self _, rfl, fun q h1 h2 => by rw [show q = k by omega], fun q h1 h2 => by simp only [] at h2; omega⟩
  · rw [if_neg h]; left
    exact ⟨rfl, fun q h1 h2 => by rw [show q = k by omega]; omega⟩

namespace Bp

theorem rmqByteLoop_spec (w : Word) (e m : Int) (i0 : Nat) (h1 : -1000 ≤ e) (h2 : e ≤ 2147483583) (E : Nat → Int) (hE : E = excF w.getLsbD) :
    ∀ (n k : Nat) (b : RmqByte), k + n = 8 → b.exc = e + E (8*k) → b.min ≤ m →
      Upd (fun q => e + E q) 0 (8*k + min k 1) (m, i0)
        (b.min, if b.min < m then b.byteIdx * 8 + (fwdRow (byteOf w (b.byteIdx * 8))).minIdx else i0) →
      ∃ b', rmqByteLoop w (List.range' k n) b = some b' ∧ b'.exc = e + E 64 ∧ b'.min ≤ m ∧
        Upd (fun q => e + E q) 0 65 (m, i0)
          (b'.min, if b'.min < m then b'.byteIdx * 8 + (fwdRow (byteOf w (b'.byteIdx * 8))).minIdx else i0) := by
  intro n
  induction n with
  | zero =>
    intro k b hk hb hm hU
    have : k = 8 := by omega
    subst this
    exact ⟨b, rfl, hb, hm, hU⟩
  | succ n ih =>
    intro k b hk hb hm hU
    obtain ⟨f1, f2, f3, f4, f5, f6, _⟩ := fwd_word w k E hE
    rw [List.range'_succ]
    unfold rmqByteLoop rmqByteStep
    have d1 := excF_le w.getLsbD (8*k)
    have d2 := excF_ge w.getLsbD (8*k)
    have d3 := excF_le w.getLsbD (8*k+8)
    have d4 := excF_ge w.getLsbD (8*k+8)
    rw [← hE] at d1 d2 d3 d4
    simp only []
    rw [show k*8 = 8*k by omega]
    rw [i32_eq _ (by omega) (by omega), bind_pure_some, i32_eq _ (by omega) (by omega), bind_pure_some,
      show ∀ (α : Type) (x : α), (pure x : Option α) = some x from fun _ _ => rfl, bind_pure_some]
    have hstep : ∀ (lo : Int × Nat), lo.1 = b.min → Upd (fun q => e + E q) (8*k) (8*(k+1)+1) lo
        (if b.exc - (fwdRow (byteOf w (8*k))).min < b.min then (b.exc - (fwdRow (byteOf w (8*k))).min, 8*k + (fwdRow (byteOf w (8*k))).minIdx) else lo) := by
      intro lo hlo
      by_cases h : b.exc - (fwdRow (byteOf w (8*k))).min < b.min
      · rw [if_pos h]; right
        refine ⟨by simp only []; omega, by simp only []; omega, by simp only []; omega, by simp only []; omega, fun q q1 q2 => ?_, fun q q1 q2 => ?_⟩
        · have := f4 (q-8*k) (by omega)
          rw [show 8*k+(q-8*k) = q by omega] at this
          simp only []; omega
        · simp only [] at q2 ⊢
          have := f6 (q-8*k) (by omega)
          rw [show 8*k+(q-8*k) = q by omega] at this
          omega
      · rw [if_neg h]; left
        refine ⟨rfl, fun q q1 q2 => ?_⟩
        have := f4 (q-8*k) (by omega)
        rw [show 8*k+(q-8*k) = q by omega] at this
        simp only []; omega
    have hU' := hU.trans (hstep _ rfl) (by omega) (by omega)
    rw [show max (8*k + min k 1) (8*(k+1)+1) = 8*(k+1) + min (k+1) 1 by omega] at hU'
    by_cases h : b.exc - (fwdRow (byteOf w (8*k))).min < b.min
    · rw [if_pos h] at hU' ⊢
      refine ih (k+1) _ (by omega) (by simp only []; rw [show 8*(k+1) = 8*k+8 by omega]; omega) (by simp only []; omega) ?_
      simp only []
      rw [if_pos (by omega), show k*8 = 8*k by omega]
      exact hU'
    · rw [if_neg h] at hU' ⊢
      refine ih (k+1) _ (by omega) (by simp only []; rw [show 8*(k+1) = 8*k+8 by omega]; omega) (by simp only []; omega) ?_
      exact hU'

theorem rmqInWord_spec (w : Word) (start : Nat) (s : Rmq) (h1 : -1000 ≤ s.exc) (h2 : s.exc ≤ 2147483583) :
    ∃ s', rmqInWord w start s = some s' ∧ s'.exc = s.exc + excF w.getLsbD 64 ∧
      Upd (fun q => s.exc + excF w.getLsbD (q - start)) start (start+65) (s.min, s.idx) (s'.min, s'.idx) := by
  obtain ⟨b, e, b1, b2, b3⟩ := rmqByteLoop_spec w s.exc s.min s.idx h1 h2 _ rfl 8 0 ⟨s.exc, s.min, 0⟩ rfl
    (by rw [Nat.mul_zero, excF_zero, Int.add_zero]) (Int.le_refl _) (by
      simp only [Int.lt_irrefl, if_false]; exact Upd.refl _ _ _)
  unfold rmqInWord
  rw [List.range_eq_range', e, bind_pure_some]
  refine ⟨_, rfl, by split <;> exact b1, ?_⟩
  by_cases h : b.min < s.min
  · rw [if_pos h] at b3 ⊢
    rcases b3 with ⟨c1, _⟩ | ⟨c1, c2, c3, c4, c5, c6⟩
    · rw [Prod.mk.injEq] at c1; omega
    · right
      simp only [] at c1 c2 c3 c4 c5 c6 ⊢
      refine ⟨c1, by omega, by omega, ?_, fun q h1 h2 => c5 _ (by omega) (by omega), fun q h1 h2 => c6 _ (by omega) (by omega)⟩
      rw [← c4]; congr 2; omega
  · rw [if_neg h] at b3 ⊢
    rcases b3 with ⟨c1, c2⟩ | ⟨c1, c2, c3, c4, c5, c6⟩
    · left
      exact ⟨rfl, fun q h1 h2 => c2 _ (by omega) (by omega)⟩
    · simp only [] at c1; omega

end Bp

namespace BpVector
variable {v : BpVector} {l : List Bool}

theorem rmqWords_spec (hi : Inv0 v l) (hg : Mild l) : ∀ (k w : Nat) (s : Rmq), 64*(w+k) ≤ l.length → s.exc = exc l (64*w) →
    ∃ s', rmqWords v.rs.bv.bits k w s = some s' ∧ s'.exc = exc l (64*(w+k)) ∧
      Upd (exc l) (64*w) (64*(w+k) + min k 1) (s.min, s.idx) (s'.min, s'.idx) := by
  intro k
  induction k with
  | zero => intro w s _ h; exact ⟨s, rfl, h, Upd.refl _ _ _⟩
  | succ k ih =>
    intro w s hk hs
    have hlen := hi.rs.rep.len
    have n1 := hg.nonneg (64*w) (by omega)
    have n2 := hg.small (64*w) (by omega)
    unfold rmqWords
    have hw : v.rs.bv.bits[w]? = some (v.rs.bv.bits[w]'(by omega)) := List.getElem?_eq_getElem _
    rw [rd_eq _ _ (show w < v.rs.bv.bits.length by omega), bind_pure_some]
    generalize v.rs.bv.bits[w]'(by omega) = word at hw ⊢
    have hwx := word_exc hw
    rw [hi.excBits] at hwx
    obtain ⟨s1, e1, e2, e3⟩ := rmqInWord_spec word (w*64) s (by omega) (by omega)
    rw [e1, bind_pure_some]
    have h64 := hwx 64 (by omega)
    obtain ⟨s2, f1, f2, f3⟩ := ih (w+1) s1 (by omega) (by rw [show 64*(w+1) = 64*w+64 by omega]; omega)
    have e3' := e3.congr (g' := exc l) (fun q q1 q2 => by
      have := hwx (q - w*64) (by omega)
      rw [show 64*w+(q-w*64) = q by omega] at this
      omega)
    have := e3'.trans f3 (by omega) (by omega)
    rw [show max (w*64+65) (64*(w+1+k)+min k 1) = 64*(w+(k+1)) + min (k+1) 1 by omega, show w*64 = 64*w by omega] at this
    exact ⟨s2, f1, by rw [f2]; congr 1; omega, this⟩

theorem rmqInBlock_spec (hi : Inv0 v l) (hg : Mild l) (a b : Nat) (s : Rmq) (hab : a ≤ b) (hb : 64*b ≤ l.length)
    (hbl : a < b → a/4 = (b-1)/4) (hs : s.exc = exc l (64*a)) :
    ∃ s', rmqInBlock v.rs.bv.bits a b s = some s' ∧ s'.exc = exc l (64*b) ∧
      Upd (exc l) (64*a) (64*b + min (b-a) 1) (s.min, s.idx) (s'.min, s'.idx) := by
  unfold rmqInBlock
  rw [assertP_eq _ hab, bind_pure_some]
  by_cases h : a = b
  · subst h
    rw [if_pos rfl]
    refine ⟨s, rfl, hs, ?_⟩
    rw [Nat.sub_self]; exact Upd.refl _ _ _
  · rw [if_neg h, assertP_eq _ (hbl (by omega)), bind_pure_some]
    obtain ⟨s', e1, e2, e3⟩ := rmqWords_spec hi hg (b-a) a s (by omega) hs
    rw [show a + (b-a) = b by omega] at e2 e3
    exact ⟨s', e1, e2, e3⟩

/-- the minimal excess in block `b`, as stored -/
def BV (v : BpVector) (l : List Bool) (b : Nat) : Int := exc l (8192*(b/32)) + V v.blockMin b

theorem BV_spec (hi : Inv0 v l) (hg : Mild l) (h0 : 0 < l.length) (b : Nat) (hb : b < (l.length+255)/256) :
    rd v.blockMin b = some (V v.blockMin b) ∧ i32 (exc l (8192*(b/32)) + V v.blockMin b) = some (BV v l b) ∧
    (∀ x, BV v l b ≤ x ↔ BX l b x) ∧ BV v l b < l.length := by
  obtain ⟨m, e1, e2, e3⟩ := (hi.bm h0).rd_eq hg b hb
  have : V v.blockMin b = m := by
    unfold rd at e1; unfold V; rw [e1]; rfl
  unfold BV
  rw [this]
  refine ⟨e1, e2, e3, ?_⟩
  have h1 := (e3 (exc l (256*b))).2 ⟨256*b, by omega, by omega, by omega, Int.le_refl _⟩
  have h2 := excF_le (bitFn l) (256*b)
  unfold exc at h1 ⊢
  omega

theorem rmqBlocks_spec (hi : Inv0 v l) (hg : Mild l) (h0 : 0 < l.length) (S : Nat) :
    ∀ (k b : Nat) (s : Int × Nat), b + k ≤ (l.length+255)/256 → 32*S ≤ b → b + k ≤ 32*(S+1) →
      ∃ s', rmqBlocks v.blockMin (exc l (8192*S)) k b s = some s' ∧ Upd (BV v l) b (b+k) s s' := by
  intro k
  induction k with
  | zero => intro b s _ _ _; exact ⟨s, rfl, Upd.refl _ _ _⟩
  | succ k ih =>
    intro b s h1 h2 h3
    obtain ⟨e1, e2, _, _⟩ := BV_spec hi hg h0 b (by omega)
    unfold rmqBlocks
    rw [show b/32 = S by omega] at e2
    rw [e1, bind_pure_some, e2, bind_pure_some]
    obtain ⟨s', f1, f2⟩ := ih (b+1) (if BV v l b < s.1 then (BV v l b, b) else s) (by omega) (by omega) (by omega)
    have := (Upd.single (BV v l) b s).trans f2 (by omega) (by omega)
    rw [show max (b+1) (b+1+k) = b+(k+1) by omega] at this
    exact ⟨s', f1, this⟩

theorem rmqInSuperblock_spec (hi : Inv0 v l) (hg : Mild l) (h0 : 0 < l.length) (a b : Nat) (s : Int × Nat) (hab : a ≤ b)
    (hb : b ≤ (l.length+255)/256) (hbl : a < b → a/32 = (b-1)/32) :
    ∃ s', rmqInSuperblock v a b s = some s' ∧ Upd (BV v l) a b s s' := by
  unfold rmqInSuperblock
  rw [assertP_eq _ hab, bind_pure_some]
  by_cases h : a = b
  · subst h
    rw [if_pos rfl]
    exact ⟨s, rfl, Upd.refl _ _ _⟩
  · have hbl' := hbl (by omega)
    rw [if_neg h]
    simp only []
    rw [assertP_eq _ hbl', bind_pure_some, blockExcess_eq hi.rs hg.nonneg hg.small _ (by omega), bind_pure_some,
      show 256*(a/32*32) = 8192*(a/32) by omega]
    obtain ⟨s', e1, e3⟩ := rmqBlocks_spec hi hg h0 (a/32) (b-a) a s (by omega) (by omega) (by omega)
    rw [show a + (b-a) = b by omega] at e3
    exact ⟨s', e1, e3⟩

/-! ### Superblocks -/

/-- the minimal excess in superblock `t`, as stored -/
def LV (v : BpVector) (H t : Nat) : Int := V v.superMin (2^H + t)

theorem LV_spec (hg : Good l) {H : Nat} (ht : TreeOK (exc l) l.length H ((l.length+8191)/8192) v.superMin)
    (t : Nat) (htn : t < (l.length+8191)/8192) :
    LV v H t ≠ toI32 l.length ∧ ∀ x, (LV v H t ≤ x ↔ SM (exc l) l.length t x) := by
  have hle := ht.le
  have h0 := ht.node H 0 (2^H+t) (by omega) (by omega) (by rw [Nat.pow_succ]; omega) (by rw [ht.lenEq]; omega)
  rw [Nat.pow_zero, Nat.mul_one, Nat.mul_one] at h0
  have hne := ((h0 _).2 ⟨t, htn, by omega, by omega, hg.wide t (by omega)⟩).2
  refine ⟨hne, fun x => ⟨fun h => ?_, fun h => ((h0 x).2 ⟨t, htn, by omega, by omega, h⟩).1⟩⟩
  obtain ⟨s, s1, s2, s3, s4⟩ := (h0 x).1 ⟨h, hne⟩
  rw [show t = s by omega]; exact s4

theorem LV_BV (hi : Inv v l) (hg : Good l) (h0 : 0 < l.length) {H : Nat} (ht : TreeOK (exc l) l.length H ((l.length+8191)/8192) v.superMin)
    (t : Nat) (htn : t < (l.length+8191)/8192) :
    (∀ b, 32*t ≤ b → b < 32*(t+1) → b < (l.length+255)/256 → LV v H t ≤ BV v l b) ∧
    ∃ b, 32*t ≤ b ∧ b < 32*(t+1) ∧ b < (l.length+255)/256 ∧ BV v l b = LV v H t := by
  obtain ⟨l1, l2⟩ := LV_spec hg ht t htn
  have hle : ∀ b, 32*t ≤ b → b < 32*(t+1) → b < (l.length+255)/256 → LV v H t ≤ BV v l b := by
    intro b h1 h2 h3
    obtain ⟨_, _, e3, e4⟩ := BV_spec hi.toInv0 hg.toMild h0 b h3
    exact (l2 _).2 ((SM_iff t (by omega) _).2 ⟨b, h1, h2, h3, (e3 _).1 (Int.le_refl _)⟩)
  refine ⟨hle, ?_⟩
  obtain ⟨b, b1, b2, b3, b4⟩ := (SM_iff t (by omega) _).1 ((l2 _).1 (Int.le_refl _))
  obtain ⟨_, _, e3, e4⟩ := BV_spec hi.toInv0 hg.toMild h0 b b3
  have h1 := (e3 _).2 b4
  have h2 := hle b b1 b2 b3
  exact ⟨b, b1, b2, b3, by omega⟩

/-- `k` is a node of height `h` of the tree with `2^H` leaves, and all its leaves are superblocks -/
structure Full (H n h k : Nat) : Prop where
  le : h ≤ H
  lo : 2^H ≤ k*2^h
  hi : (k+1)*2^h ≤ 2^H + n

theorem Full.depth {H n h k : Nat} (hf : Full H n h k) (hn : n ≤ 2^H) : 2^(H-h) ≤ k ∧ k < 2^(H-h+1) := by
  have hH : 2^H = 2^(H-h)*2^h := by rw [← Nat.pow_add]; congr 1; have := hf.le; omega
  have h0 := Nat.two_pow_pos h
  have h1 := hf.lo
  have h2 := hf.hi
  constructor
  · rw [hH] at h1; exact Nat.le_of_mul_le_mul_right h1 h0
  · have : (k+1)*2^h ≤ 2^(H-h+1)*2^h := by rw [Nat.pow_succ, Nat.mul_right_comm, ← hH]; omega
    exact Nat.le_of_mul_le_mul_right this h0

theorem Full.lt {H n h k : Nat} (hf : Full H n h k) : k < 2^H + n := by
  have h2 := hf.hi
  have : (k+1)*1 ≤ (k+1)*2^h := Nat.mul_le_mul_left _ (Nat.two_pow_pos h)
  omega

theorem node_min (hg : Good l) {H : Nat} (ht : TreeOK (exc l) l.length H ((l.length+8191)/8192) v.superMin)
    {h k : Nat} (hf : Full H ((l.length+8191)/8192) h k) :
    rd v.superMin k = some (V v.superMin k) ∧
    (∀ t, k*2^h ≤ 2^H + t → 2^H + t < (k+1)*2^h → V v.superMin k ≤ LV v H t) ∧
    ∃ t, k*2^h ≤ 2^H + t ∧ 2^H + t < (k+1)*2^h ∧ V v.superMin k = LV v H t := by
  obtain ⟨d1, d2⟩ := hf.depth ht.le
  have hlt := hf.lt
  have hhi := hf.hi
  have hlo := hf.lo
  have n2 := ht.node (H-h) h k (by have := hf.le; omega) d1 d2 (by rw [ht.lenEq]; omega)
  have hle : ∀ t, k*2^h ≤ 2^H + t → 2^H + t < (k+1)*2^h → V v.superMin k ≤ LV v H t := by
    intro t t1 t2
    obtain ⟨l1, l2⟩ := LV_spec hg ht t (by omega)
    exact ((n2 _).2 ⟨t, by omega, t1, t2, (l2 _).1 (Int.le_refl _)⟩).1
  refine ⟨V_rd (by rw [ht.lenEq]; omega), hle, ?_⟩
  have h0 := Nat.two_pow_pos h
  have hv : V v.superMin k ≠ toI32 l.length := by
    have hk : k*2^h < (k+1)*2^h := by rw [Nat.add_mul]; omega
    exact ((n2 _).2 ⟨k*2^h - 2^H, by omega, by omega, by omega, hg.wide _ (by omega)⟩).2
  obtain ⟨s, s1, s2, s3, s4⟩ := (n2 _).1 ⟨Int.le_refl _, hv⟩
  have h1 := ((LV_spec hg ht s s1).2 _).2 s4
  have h2 := hle s s2 s3
  exact ⟨s, s2, s3, by omega⟩

/-- the tree over the superblocks holds the minimum of the leaves below each node all of whose leaves are superblocks -/
structure MinTree (v : BpVector) (H n : Nat) : Prop where
  lenEq : v.superMin.length = 2^H + n
  le : n ≤ 2^H
  lt : n < 2^64
  node : ∀ {h k : Nat}, Full H n h k → rd v.superMin k = some (V v.superMin k) ∧
    (∀ t, k*2^h ≤ 2^H + t → 2^H + t < (k+1)*2^h → V v.superMin k ≤ LV v H t) ∧
    ∃ t, k*2^h ≤ 2^H + t ∧ 2^H + t < (k+1)*2^h ∧ V v.superMin k = LV v H t

theorem MinTree.of (hg : Good l) {H : Nat} (ht : TreeOK (exc l) l.length H ((l.length+8191)/8192) v.superMin) :
    MinTree v H ((l.length+8191)/8192) :=
  ⟨ht.lenEq, ht.le, by have := hg.len; omega, fun hf => node_min hg ht hf⟩

/-- `p` is the node holding the leftmost minimum among superblocks `[lo, hi)` -/
def Cand (v : BpVector) (H n lo hi : Nat) (p : Int × Nat) : Prop :=
  ∃ h, Full H n h p.2 ∧ V v.superMin p.2 = p.1 ∧ 2^H + lo ≤ p.2*2^h ∧ (p.2+1)*2^h ≤ 2^H + hi ∧
    (∀ q, lo ≤ q → q < hi → p.1 ≤ LV v H q) ∧ ∀ q, lo ≤ q → 2^H + q < p.2*2^h → p.1 < LV v H q

theorem Cand.add {H n : Nat} (ht : MinTree v H n) {lo hi : Nat} {p : Int × Nat}
    (hc : Cand v H n lo hi p) {hh k hi' : Nat} (hf : Full H n hh k)
    (h1 : 2^H + lo ≤ k*2^hh) (h2 : k*2^hh ≤ 2^H + hi) (h3 : (k+1)*2^hh = 2^H + hi') (h4 : hi ≤ hi') :
    ∃ p', betterNode v.superMin true k p = some p' ∧ Cand v H n lo hi' p' := by
  obtain ⟨m1, m2, m3⟩ := ht.node hf
  unfold betterNode
  rw [if_pos rfl, m1, bind_pure_some]
  refine ⟨_, rfl, ?_⟩
  obtain ⟨hp, c1, c2, c3, c4, c5, c6⟩ := hc
  by_cases h : V v.superMin k < p.1
  · rw [if_pos h]
    refine ⟨hh, hf, rfl, h1, by simp only []; omega, fun q q1 q2 => ?_, fun q q1 q2 => ?_⟩
    · simp only []
      rcases Nat.lt_or_ge q hi with hh | hh
      · have := c5 q q1 hh; omega
      · exact m2 q (by omega) (by omega)
    · simp only [] at q2 ⊢
      have := c5 q q1 (by omega); omega
  · rw [if_neg h]
    refine ⟨hp, c1, c2, c3, by omega, fun q q1 q2 => ?_, c6⟩
    rcases Nat.lt_or_ge q hi with hh | hh
    · exact c5 q q1 hh
    · have := m2 q (by omega) (by omega); omega

end BpVector
end Succinct
