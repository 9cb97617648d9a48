import Verif.Lemmas.BpFind
import Verif.Lemmas.Parens

/-! Searches for parentheses that do not exist. -/
namespace Succinct
open Broadword Bp
open RSBitVector (bind_pure_some)

theorem i32_some {x y : Int} (h : i32 x = some y) : y = x := by
  unfold i32 at h
  split at h
  · exact (Option.some.inj h).symm
  · simp at h

namespace BpVector

variable {v : BpVector} {l : List Bool} {bits : List Word} {E : Nat → Int}

/-- a position found by `find_close_in_block` has the right excess -/
theorem closeLoop_sound (hE : E = excF (wbit bits)) (T : Int) (r : Nat) :
    ∀ (k o : Nat) (e : Int), e = E (64*o) - T → closeLoop bits k o e = some (some r) → 64*o ≤ r ∧ E (r+1) = T := by
  intro k
  induction k with
  | zero => intro o e _ h; simp [closeLoop] at h
  | succ k ih =>
    intro o e he h
    unfold closeLoop at h
    simp only [Option.bind_eq_bind, Option.bind_eq_some_iff] at h
    obtain ⟨w, hw, _, ha, r0, h0, h⟩ := h
    have hpos := assertP_some ha
    have hx := word_exc (bits := bits) (w := w) (o := o) hw
    rw [← hE] at hx
    cases r0 with
    | some r0 =>
      simp only [pure, Option.some.injEq] at h
      unfold closeWord at h0
      split at h0
      · rename_i h64
        rcases findCloseInWord_spec w e (by omega) h64 with ⟨hf, _⟩ | ⟨r1, hf, hr, hr1, _⟩
        · rw [hf] at h0; simp at h0
        · rw [hf] at h0
          simp only [Option.some.injEq] at h0
          have := hx (r1+1) (by omega)
          rw [show 64*o + (r1+1) = r+1 by omega] at this
          exact ⟨by omega, by omega⟩
      · simp at h0
    | none =>
      simp only [Option.bind_eq_some_iff] at h
      obtain ⟨e', h1, h2⟩ := h
      have h1 := i32_some h1
      have hb64 := bytesSum_eq w
      have hx64 := hx 64 (by omega)
      have r1 := excF_le w.getLsbD 64
      have r2 := excF_ge w.getLsbD 64
      rw [show 2 * ((bytesSum (byteCounts w)).toNat : Int) - 64 = excF w.getLsbD 64 by omega,
        toI32_eq _ (by omega) (by omega)] at h1
      have := ih (o+1) e' (by rw [show 64*(o+1) = 64*o+64 by omega]; omega) h2
      exact ⟨by omega, this.2⟩

theorem findCloseInBlock_sound (hE : E = excF (wbit bits)) (T : Int) (r bo start : Nat) (e : Int) (he : e = E (64*(bo+start)) - T)
    (h : findCloseInBlock bits bo e start = some (some r)) : 64*(bo+start) ≤ r ∧ E (r+1) = T := by
  unfold findCloseInBlock at h
  rw [Option.bind_eq_bind, Option.bind_eq_some_iff] at h
  obtain ⟨left, _, h⟩ := h
  split at h
  · simp [pure] at h
  · simp only [Option.bind_eq_bind, Option.bind_eq_some_iff] at h
    obtain ⟨_, _, h⟩ := h
    exact closeLoop_sound hE T r left (bo+start) e he h

/-- a position found by `find_open_in_block` has the right excess -/
theorem openLoop_sound (hE : E = excF (wbit bits)) (T : Int) (r bo : Nat) :
    ∀ (k : Nat) (e : Int), e = E (64*(bo+k)) - T → openLoop bits bo k e = some (some r) → r < 64*(bo+k) ∧ E r = T := by
  intro k
  induction k with
  | zero => intro e _ h; simp [openLoop] at h
  | succ k ih =>
    intro e he h
    unfold openLoop at h
    simp only [Option.bind_eq_bind, Option.bind_eq_some_iff] at h
    obtain ⟨_, ha, w, hw, r0, h0, h⟩ := h
    have hpos := assertP_some ha
    have hx := word_exc (bits := bits) (w := w) (o := bo+k) hw
    rw [← hE] at hx
    have hx64 := hx 64 (by omega)
    rw [show 64*(bo+k)+64 = 64*(bo+(k+1)) by omega] at hx64
    cases r0 with
    | some r0 =>
      simp only [pure, Option.some.injEq] at h
      unfold openWord at h0
      split at h0
      · rename_i h64
        rcases findOpenInWord_spec w e (by omega) h64 with ⟨hf, _⟩ | ⟨r1, hf, hr, hr1, _⟩
        · rw [hf] at h0; simp at h0
        · rw [hf] at h0
          simp only [Option.some.injEq] at h0
          have := hx r1 (by omega)
          rw [show 64*(bo+k) + r1 = r by omega] at this
          exact ⟨by omega, by omega⟩
      · simp at h0
    | none =>
      simp only [Option.bind_eq_some_iff] at h
      obtain ⟨e', h1, h2⟩ := h
      have h1 := i32_some h1
      have hb64 := bytesSum_eq w
      have r1 := excF_le w.getLsbD 64
      have r2 := excF_ge w.getLsbD 64
      rw [show 2 * ((bytesSum (byteCounts w)).toNat : Int) - 64 = excF w.getLsbD 64 by omega,
        toI32_eq _ (by omega) (by omega)] at h1
      have := ih e' (by omega) h2
      exact ⟨by omega, this.2⟩

theorem findOpenInBlock_sound (hE : E = excF (wbit bits)) (T : Int) (r bo start : Nat) (e : Int) (he : e = E (64*(bo+start)) - T)
    (h : findOpenInBlock bits bo e start = some (some r)) : r < 64*(bo+start) ∧ E r = T := by
  unfold findOpenInBlock at h
  split at h
  · simp at h
  · simp only [Option.bind_eq_bind, Option.bind_eq_some_iff] at h
    obtain ⟨_, _, h⟩ := h
    exact openLoop_sound hE T r bo start e he h

/-- a node in range has a superblock in range below it -/
theorem inNodeRange_sound (hi : Inv v l) (hg : Good l) {H n : Nat}
    (ht : TreeOK (exc l) l.length H n v.superMin) (x : Int) (d h k : Nat) (hd : d + h = H) (h1 : 2^d ≤ k) (h2 : k < 2^(d+1))
    (hb : inNodeRange v k x = some true) : ∃ t, Under (2^H) n h k t ∧ SM (exc l) l.length t x := by
  unfold inNodeRange at hb
  simp only [Option.bind_eq_bind, Option.bind_eq_some_iff] at hb
  obtain ⟨m, hm, _, ha, hb⟩ := hb
  have ha := assertP_some ha
  rw [hi.rs.rep.size] at ha
  have hk : k < v.superMin.length := by
    unfold rd at hm
    exact (List.getElem?_eq_some_iff.1 hm).1
  rw [V_rd hk] at hm
  simp only [Option.some.injEq] at hm
  simp only [pure, Option.some.injEq, decide_eq_true_iff] at hb
  obtain ⟨t, t1, t2, t3, t4⟩ := (ht.node d h k hd h1 h2 hk x).1 ⟨by omega, by rw [hm]; exact ha⟩
  exact ⟨t, ⟨t1, t2, t3⟩, t4⟩

theorem treeUp_fwd_none (hi : Inv v l) (hg : Good l) {H n : Nat}
    (ht : TreeOK (exc l) l.length H n v.superMin) (x : Int) (s : Nat)
    (hno : ∀ t, s < t → t < n → ¬ SM (exc l) l.length t x) :
    ∀ (fuel d h k : Nat), d + h = H → 2^d ≤ k → k < 2^(d+1) → 2^H + s < (k+1)*2^h → treeUp v true x fuel k = none := by
  intro fuel
  induction fuel with
  | zero => intro d h k _ _ _ _; rfl
  | succ fuel ih =>
    intro d h k hd h1 h2 hA
    rw [Option.eq_none_iff_forall_ne_some]
    intro r hr
    unfold treeUp at hr
    simp only [Option.bind_eq_bind, Option.bind_eq_some_iff] at hr
    obtain ⟨_, ha, r0, h0, hr⟩ := hr
    have ha := assertP_some ha
    have ph : 2^(h+1) = 2*2^h := by rw [Nat.pow_succ]; omega
    have key : ∀ b, (k/2+1)*2^(h+1) = b*2^h → (k+1)*2^h ≤ b*2^h → treeUp v true x fuel (k/2) = none := by
      intro b hb hb2
      cases d with
      | zero =>
        have : k = 1 := by simp at h1 h2; omega
        subst this
        cases fuel with
        | zero => rfl
        | succ fuel => unfold treeUp; simp [assertP]
      | succ d' =>
        have p1 : 2^(d'+1) = 2*2^d' := by rw [Nat.pow_succ]; omega
        have p2 : 2^(d'+1+1) = 2*2^(d'+1) := by rw [Nat.pow_succ]; omega
        exact ih d' (h+1) (k/2) (by omega) (by omega) (by omega) (by rw [hb]; omega)
    unfold siblingHit at h0
    by_cases hodd : k % 2 = 1
    · rw [if_pos (by simpa using hodd)] at h0
      cases h0
      rw [key (k+1) (by rw [ph, ← Nat.mul_assoc]; congr 1; omega) (Nat.le_refl _)] at hr
      simp at hr
    · rw [if_neg (by simpa using hodd), Option.bind_eq_bind, show otherNode true k = some (k+1) from rfl, Option.bind_some,
        Option.bind_eq_bind, Option.bind_eq_some_iff] at h0
      obtain ⟨b, eb, h0⟩ := h0
      cases b with
      | true =>
        have hd0 : 0 < d := by
          rcases Nat.eq_zero_or_pos d with hd0 | hd0
          · subst hd0; simp at h1 h2; omega
          · exact hd0
        have hk2 : k + 1 < 2^(d+1) := by
          have : 2^(d+1) % 2 = 0 := by rw [Nat.pow_succ]; omega
          omega
        obtain ⟨t, ⟨t1, t2, t3⟩, t4⟩ := inNodeRange_sound hi hg ht x d h (k+1) hd (by omega) hk2 eb
        exact hno t (by omega) t1 t4
      | false =>
        simp [pure] at h0
        subst h0
        rw [key (k+2) (by rw [ph, ← Nat.mul_assoc]; congr 1; omega) (Nat.mul_le_mul_right _ (by omega))] at hr
        simp at hr

theorem treeUp_bwd_zero (hi : Inv v l) (hg : Good l) {H n : Nat}
    (ht : TreeOK (exc l) l.length H n v.superMin) (x : Int)
    (hno : ∀ t, t < n → ¬ SM (exc l) l.length t x) :
    ∀ (fuel d h k r : Nat), d + h = H → 2^d ≤ k → k < 2^(d+1) → treeUp v false x fuel k = some r → r = 0 := by
  intro fuel
  induction fuel with
  | zero => intro d h k r _ _ _ hr; simp [treeUp] at hr
  | succ fuel ih =>
    intro d h k r hd h1 h2 hr
    unfold treeUp at hr
    simp only [Option.bind_eq_bind, Option.bind_eq_some_iff] at hr
    obtain ⟨_, ha, r0, h0, hr⟩ := hr
    have ha := assertP_some ha
    have key : treeUp v false x fuel (k/2) = some r → r = 0 := by
      intro hr
      cases d with
      | zero =>
        have : k = 1 := by simp at h1 h2; omega
        subst this
        cases fuel with
        | zero => simp [treeUp] at hr
        | succ fuel => unfold treeUp at hr; simp [assertP] at hr
      | succ d' =>
        have p1 : 2^(d'+1) = 2*2^d' := by rw [Nat.pow_succ]; omega
        have p2 : 2^(d'+1+1) = 2*2^(d'+1) := by rw [Nat.pow_succ]; omega
        exact ih d' (h+1) (k/2) r (by omega) (by omega) (by omega) hr
    unfold siblingHit at h0
    by_cases hev : k % 2 = 0
    · rw [if_pos (by simpa using hev)] at h0
      cases h0
      exact key hr
    · rw [if_neg (by simpa using hev), Option.bind_eq_bind, show otherNode false k = subU k 1 from rfl, subU_eq _ _ (by omega), Option.bind_some,
        Option.bind_eq_bind, Option.bind_eq_some_iff] at h0
      obtain ⟨b, eb, h0⟩ := h0
      cases b with
      | true =>
        simp only [pure, if_true, Option.some.injEq] at h0
        subst h0
        simp only [pure, Option.some.injEq] at hr
        subst hr
        cases d with
        | zero => simp at h1 h2; omega
        | succ d' =>
          have p2 : 2^(d'+1) = 2*2^d' := by rw [Nat.pow_succ]; omega
          obtain ⟨t, ⟨t1, t2, t3⟩, t4⟩ := inNodeRange_sound hi hg ht x (d'+1) h (k-1) hd (by omega) (by omega) eb
          exact absurd t4 (hno t t1)
      | false =>
        simp [pure] at h0
        subst h0
        exact key hr

/-- the forward search fails if no later block is in range -/
theorem searchMinTree_fwd_none (hi : Inv v l) (hg : Good l) (h0 : 0 < l.length) (x : Int) (b : Nat)
    (hb : b ≤ (l.length+255)/256) (hno : ∀ p, 256*b ≤ p → p ≤ l.length → x < exc l p) : searchMinTree v true b x = none := by
  obtain ⟨H, hN, ht⟩ := hi.tree h0
  rw [Option.eq_none_iff_forall_ne_some]
  intro r hr
  unfold searchMinTree at hr
  rw [Option.bind_eq_bind, Option.bind_eq_some_iff] at hr
  obtain ⟨r0, e0, hr⟩ := hr
  have hr0 : r0 = none := by
    rcases Nat.lt_or_ge b ((l.length+255)/256) with hlt | hge
    · rcases searchBlock_fwd hi.toInv0 hg.toMild h0 x b hlt with ⟨a1, _⟩ | ⟨c, c1, c2, _, c3, ⟨p, p1, p2, p3, p4⟩, _⟩
      · rw [a1] at e0; exact (Option.some.inj e0).symm
      · have := hno p (by omega) p3; omega
    · unfold searchBlockInSuperblock at e0
      simp only [Option.bind_eq_bind, Option.bind_eq_some_iff] at e0
      obtain ⟨se, _, e0⟩ := e0
      rw [if_pos trivial, (hi.bm h0).lenEq, show min ((b/32+1)*32) ((l.length+255)/256) - b = 0 by omega] at e0
      exact (Option.some.inj e0).symm
  subst hr0
  simp only [Option.bind_eq_bind, Option.bind_eq_some_iff] at hr
  obtain ⟨top, et, _⟩ := hr
  have hnH := ht.le
  have hS : ∀ t, b/32 < t → t < (l.length+8191)/8192 → ¬ SM (exc l) l.length t x := by
    rintro t t1 t2 ⟨p, p1, p2, p3, p4⟩
    have := hno p (by omega) p3
    omega
  rcases Nat.lt_or_ge (b/32) (2^H) with hlt | hge
  · rw [treeUp_fwd_none hi hg ht x (b/32) hS _ H 0 _ (by omega) (by omega) (by rw [Nat.pow_succ]; omega) (by rw [Nat.pow_zero]; omega)] at et
    simp at et
  · have hH := Nat.two_pow_pos H
    have e1 : v.internalNodes + b/32 = 2*2^H := by omega
    rw [e1] at et
    unfold treeUp at et
    simp only [Option.bind_eq_bind, Option.bind_eq_some_iff] at et
    obtain ⟨_, _, r0, h0', _⟩ := et
    unfold siblingHit at h0'
    rw [if_neg (by simp), Option.bind_eq_bind, show otherNode true (2*2^H) = some (2*2^H+1) from rfl, Option.bind_some] at h0'
    unfold inNodeRange rd at h0'
    rw [List.getElem?_eq_none (by rw [ht.lenEq]; omega)] at h0'
    simp at h0'

/-- the backward search fails if no block at all is in range -/
theorem searchMinTree_bwd_none (hi : Inv v l) (hg : Good l) (h0 : 0 < l.length) (x : Int) (b : Nat)
    (hb : b < (l.length+255)/256) (hno : ∀ p, p ≤ l.length → x < exc l p) : searchMinTree v false b x = none := by
  obtain ⟨H, hN, ht⟩ := hi.tree h0
  rw [Option.eq_none_iff_forall_ne_some]
  intro r hr
  unfold searchMinTree at hr
  rw [Option.bind_eq_bind, Option.bind_eq_some_iff] at hr
  obtain ⟨r0, e0, hr⟩ := hr
  have hr0 : r0 = none := by
    rcases searchBlock_bwd hi.toInv0 hg.toMild h0 x b hb with ⟨a1, _⟩ | ⟨c, c1, _, c3, ⟨p, p1, p2, p3, p4⟩, _⟩
    · rw [a1] at e0; exact (Option.some.inj e0).symm
    · have := hno p p3; omega
  subst hr0
  simp only [Option.bind_eq_bind, Option.bind_eq_some_iff] at hr
  obtain ⟨top, et, _, ea, _⟩ := hr
  have hnH := ht.le
  have := treeUp_bwd_zero hi hg ht x (by
    rintro t t2 ⟨p, p1, p2, p3, p4⟩
    have := hno p p3
    omega) _ H 0 _ top (by omega) (by omega) (by rw [Nat.pow_succ]; omega) et
  exact assertP_some ea this

/-- `find_close` of an opening parenthesis that is never closed does not answer a position of the vector -/
theorem findClose_unmatched (ov : Word → Nat → Word) (hi : Inv v l) (hg : Good l) (pos r : Nat) (hp : pos < l.length)
    (hq : ∀ q, pos < q → q ≤ l.length → exc l pos < exc l q) (hr : findClose ov v pos = some r) : l.length ≤ r := by
  have hl := hg.len
  have hlen := hi.rs.rep.len
  have hbits := hi.excBits
  have hE' := hbits.symm
  have hE1 : exc l pos < exc l (pos+1) := hq _ (by omega) (by omega)
  have hd1 := (excF_diff (bitFn l) (show pos ≤ pos+1 by omega)).1
  have hE2 : exc l (pos+1) = exc l pos + 1 := by simp only [exc] at *; omega
  have concl : ∀ q, pos < q → exc l q = exc l pos → l.length < q := by
    intro q h1 h2
    by_contra hc
    have := hq q h1 (by omega)
    omega
  unfold findClose at hr
  rw [BitVector.access_eq hi.rs.rep pos (by omega), bind_pure_some] at hr
  simp only [Option.bind_eq_bind] at hr
  rw [Option.bind_eq_some_iff] at hr
  obtain ⟨_, _, hr⟩ := hr
  rw [Option.bind_eq_some_iff] at hr
  obtain ⟨w, hw, hr⟩ := hr
  have hwx := word_exc (bits := v.rs.bv.bits) (w := w) (o := (pos+1)/64) hw
  rw [hbits] at hwx
  have hpad := paddedClose_bit ov w ((pos+1)%64) (by omega)
  generalize (w >>> ((pos+1)%64)) ||| (negBool ((pos+1)%64 ≠ 0) &&& shlOv ov (BitVec.allOnes 64) (64 - (pos+1)%64)) = pw at hpad hr
  generalize hsd : (pos+1)%64 = sh at *
  generalize hwd : (pos+1)/64 = wp at *
  have hpos : pos + 1 = 64*wp + sh := by omega
  have hsh : sh < 64 := by omega
  have hin : ∀ i, i ≤ 64 - sh → excF pw.getLsbD i = exc l (pos+1+i) - exc l (pos+1) := by
    intro i hii
    rw [excF_congr (g := fun t => w.getLsbD (sh+t)) (fun t ht => by rw [hpad t (by omega), if_pos (by omega)])]
    have e1 := excF_add w.getLsbD sh i
    have e2 := hwx (sh+i) (by omega)
    have e3 := hwx sh (by omega)
    rw [hpos, show 64*wp+sh+i = 64*wp+(sh+i) by omega]
    omega
  have hout : ∀ i, 64 - sh ≤ i → i ≤ 64 → excF pw.getLsbD i = excF pw.getLsbD (64-sh) + (i - (64 - sh)) := by
    intro i h1 h2
    have := excF_true (f := pw.getLsbD) h1 (fun t ht1 ht2 => by rw [hpad t (by omega), if_neg (by omega)])
    omega
  have hend : exc l (pos+1+(64-sh)) = exc l (64*(wp+1)) := by congr 1; omega
  rcases findCloseInWord_spec pw 1 (by omega) (by omega) with ⟨e1, e2⟩ | ⟨r0, e1, r1, r2, r3⟩
  · rw [e1, Option.bind_some] at hr
    simp only [] at hr
    have hbs := bytesSum_eq pw
    have h64 := hout 64 (by omega) (by omega)
    have hi64 := hin (64-sh) (by omega)
    have hd := excF_diff (bitFn l) (show pos+1 ≤ pos+1+(64-sh) by omega)
    have hd' : exc l (pos+1) - (64 - sh) ≤ exc l (pos+1+(64-sh)) ∧ exc l (pos+1+(64-sh)) ≤ exc l (pos+1) + (64-sh) := by
      constructor
      · have := hd.2; simp only [exc]; push_cast [show sh ≤ 64 by omega] at this; omega
      · have := hd.1; simp only [exc]; push_cast [show sh ≤ 64 by omega] at this; omega
    clear hd
    rw [subU_eq _ _ (by omega), Option.bind_some, toI32_eq _ (by omega) (by omega), i32_eq _ (by omega) (by omega), Option.bind_some,
      Option.bind_eq_some_iff] at hr
    obtain ⟨rb, eb, hr⟩ := hr
    cases rb with
    | some rb =>
      simp only [pure, Option.some.injEq] at hr
      subst hr
      have := findCloseInBlock_sound hE' (exc l pos) rb (wp/4*4) (wp%4+1) _ (by
        rw [show wp/4*4+(wp%4+1) = wp+1 by omega]; omega) eb
      have := concl (rb+1) (by omega) this.2
      omega
    | none =>
      simp only [] at hr
      rw [excess_eq hi.toInv0 hg.toMild pos (by omega), Option.bind_some,
        searchMinTree_fwd_none hi hg (by omega) (exc l pos) (wp/4+1) (by
          have : wp < v.rs.bv.bits.length := by unfold rd at hw; exact (List.getElem?_eq_some_iff.1 hw).1
          omega) (fun p h1 h2 => hq p (by omega) h2)] at hr
      simp at hr
  · rw [e1, Option.bind_some] at hr
    simp only [pure, Option.some.injEq] at hr
    have hr' : r0 + 1 ≤ 64 - sh := by
      by_contra hh
      have h1 := hout (r0+1) (by omega) (by omega)
      have h2 := r3 (64-sh) (by omega)
      omega
    have h1 := hin (r0+1) hr'
    have := concl (pos+1+(r0+1)) (by omega) (by omega)
    omega

/-- `find_open` at a position of excess 0 fails -/
theorem findOpen_none (ov : Word → Nat → Word) (hi : Inv v l) (hg : Good l) (pos : Nat) (hpl : pos < l.length)
    (hE : exc l pos = 0) : findOpen ov v pos = none := by
  have hl := hg.len
  have hlen := hi.rs.rep.len
  have hbits := hi.excBits
  have hE' := hbits.symm
  rw [Option.eq_none_iff_forall_ne_some]
  intro r hr
  unfold findOpen at hr
  simp only [Option.bind_eq_bind] at hr
  rw [Option.bind_eq_some_iff] at hr
  obtain ⟨_, hp0, hr⟩ := hr
  have hp0 := assertP_some hp0
  rw [Option.bind_eq_some_iff] at hr
  obtain ⟨w, hw, hr⟩ := hr
  have hwx := word_exc (bits := v.rs.bv.bits) (w := w) (o := pos/64) hw
  rw [hbits] at hwx
  have hpad := shiftedOpen_bit ov w (pos%64) (by omega)
  generalize (negBool (pos%64 ≠ 0) &&& shlOv ov w (64 - pos%64)) = pw at hpad hr
  generalize hsd : pos%64 = sh at *
  generalize hwd : pos/64 = wp at *
  have hpos : pos = 64*wp + sh := by omega
  have hsh : sh < 64 := by omega
  have hlo : ∀ i, i ≤ 64 - sh → excF pw.getLsbD i = -i := by
    intro i hii
    have := excF_false (f := pw.getLsbD) (Nat.zero_le i) (fun t ht1 ht2 => by rw [hpad t (by omega)]; simp; omega)
    rw [excF_zero] at this; omega
  have hin : ∀ i, i ≤ sh → excF pw.getLsbD (64 - sh + i) = -((64 - sh : Nat) : Int) + (exc l (64*wp+i) - exc l (64*wp)) := by
    intro i hii
    rw [excF_add, hlo _ (Nat.le_refl _), ← hwx i (by omega),
      excF_congr (f := fun t => pw.getLsbD (64-sh+t)) (g := w.getLsbD) (fun t ht => by rw [hpad _ (by omega), Nat.add_sub_cancel_left]; simp)]
  have h64 := hin sh (by omega)
  rw [show 64 - sh + sh = 64 by omega, ← hpos] at h64
  rcases findOpenInWord_spec pw 1 (by omega) (by omega) with ⟨e1, e2⟩ | ⟨r0, e1, r1, r2, r3⟩
  · rw [e1, Option.bind_some] at hr
    simp only [] at hr
    have hbs := bytesSum_eq pw
    have hd := excF_diff (bitFn l) (show 64*wp ≤ pos by omega)
    have hd' : exc l (64*wp) - sh ≤ exc l pos ∧ exc l pos ≤ exc l (64*wp) + sh := by
      constructor
      · have := hd.2; simp only [exc]; omega
      · have := hd.1; simp only [exc]; omega
    clear hd
    rw [toI32_eq _ (by omega) (by omega), i32_eq _ (by omega) (by omega), Option.bind_some, i32_eq _ (by omega) (by omega), Option.bind_some,
      Option.bind_eq_some_iff] at hr
    obtain ⟨rb, eb, hr⟩ := hr
    have hwl : wp/4*4 + wp%4 = wp := by omega
    cases rb with
    | some rb =>
      have := findOpenInBlock_sound hE' (-1) rb (wp/4*4) (wp%4) _ (by rw [hwl]; omega) eb
      have := hg.nonneg rb (by omega)
      omega
    | none =>
      simp only [] at hr
      rw [excess_eq hi.toInv0 hg.toMild pos (by omega), Option.bind_some, hE, i32_eq _ (by omega) (by omega), Option.bind_some, Option.bind_eq_some_iff] at hr
      obtain ⟨prev, e3, hr⟩ := hr
      have hprev : prev + 1 = wp/4 := by
        unfold subU at e3
        split at e3
        · have := Option.some.inj e3; omega
        · simp at e3
      rw [searchMinTree_bwd_none hi hg (by omega) (0-1) prev (by omega) (fun p h1 => by have := hg.nonneg p h1; omega)] at hr
      simp at hr
  · have hr' : 64 - sh ≤ r0 := by
      by_contra hh
      have h1 := hlo r0 (by omega)
      have h2 := hlo (64-sh) (by omega)
      have h3 := r3 (64-sh) (by omega) (by omega)
      omega
    have h1 := hin (r0-(64-sh)) (by omega)
    rw [show 64-sh+(r0-(64-sh)) = r0 by omega] at h1
    have := hg.nonneg (64*wp+(r0-(64-sh))) (by omega)
    omega

end BpVector
end Succinct
