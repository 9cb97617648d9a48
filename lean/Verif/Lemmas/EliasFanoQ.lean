import Verif.Lemmas.EliasFano

/-! Elias-Fano: queries -/
namespace Succinct
open Spec Broadword
namespace EliasFano

structure Good (ef : EliasFano) (n : Word) (xs : List Word) (hb : List Bool) : Prop where
  size : ef.size = n
  lb : ef.l < 64
  highRep : Rep ef.high hb
  lowRep : Rep ef.low (xs.flatMap (lowBits · ef.l))
  len : xs.length + n.toNat / 2^ef.l + 1 < hb.length
  high : High (bitFn hb) hb.length (xs.map fun x => x.toNat / 2^ef.l)
  sorted : xs.Pairwise (· ≤ ·)
  le : ∀ x ∈ xs, x ≤ n
  ones : ef.d1.positions = xs.length
  sel : ∀ k (h : k < xs.length), ef.d1.select false ef.high k = some (xs[k].toNat / 2^ef.l + k)

structure Rank (ef : EliasFano) (hb : List Bool) : Prop where
  pos : ef.d0.positions ≠ 0
  sel0 : ∀ p, p < hb.length → bitFn hb p = false → ef.d0.select true ef.high (p - cnt (bitFn hb) p) = some p

theorem build_good {b : EFBuilder} {n : Word} {m l : Nat} {hb : List Bool} {xs : List Word}
    (h : EFBuilder.Good b n m l hb xs) (wr : Bool) :
    ∃ ef, build b wr = some ef ∧ Good ef n xs hb ∧ (wr = true → Rank ef hb) := by
  obtain ⟨hv, e1, r1⟩ := BitVector.ofBuilder_rep _ _ h.highInv
  obtain ⟨lv, e2, r2⟩ := BitVector.ofBuilder_rep _ _ h.low
  have hhv := BitVector.eq_ofRange r1
  obtain ⟨d1, f1, f2, f3, _⟩ := C18_darray1 hb
  obtain ⟨d0, g1, g2, g3, _⟩ := C18_darray0 hb
  rw [← hhv] at f1 f3 g1 g3
  have hcount : hb.count true = xs.length := by
    rw [count_eq_cnt, h.high.all, List.length_map]
  have hcc := count_add_count hb
  have hlen := h.len
  have hnn := Nat.zero_le (n.toNat / 2^l)
  have hc := h.count
  have hgood : ∀ d0, Good ⟨b.n, hv, d1, d0, lv, b.l⟩ n xs hb := by
    intro d0
    refine ⟨h.hn, by rw [h.hl]; exact h.lb, r1, by rw [h.hl]; exact r2, by rw [h.hl]; show _ + _ / 2^l + 1 < _; omega,
      by rw [h.hl]; exact h.high, h.sorted, h.le, ?_, ?_⟩
    · rw [f2, hcount]
    · intro k hk
      obtain ⟨p, p1, p2⟩ := f3 k (by omega)
      simp only [p1]
      congr 1
      obtain ⟨q1, q2⟩ := (isSelect1_iff _ _ _).1 p2
      have hk' : k < (xs.map fun x => x.toNat / 2^l).length := by rw [List.length_map]; exact hk
      have a1 := h.high.one k hk'
      have a2 := h.high.cnt k hk'
      rw [List.getElem_map] at a1 a2
      rw [h.hl]
      exact sel_unique q1 a1 (by rw [q2, a2])
  unfold build
  rw [e1, bind_pure_some, f1, bind_pure_some]
  cases wr with
  | false =>
    rw [if_neg (by simp), bind_pure_some]
    simp only []
    rw [e2, bind_pure_some]
    exact ⟨_, rfl, hgood _, by simp⟩
  | true =>
    rw [if_pos rfl, g1, bind_pure_some]
    simp only []
    rw [e2, bind_pure_some]
    refine ⟨_, rfl, hgood _, fun _ => ⟨by rw [g2]; omega, ?_⟩⟩
    intro p hp hf
    have hz : p - cnt (bitFn hb) p < hb.count false := by
      have := cnt_lt_of_true (f := fun p => !bitFn hb p) hp (by simp [hf])
      rw [cnt_not, cnt_not, ← count_eq_cnt] at this
      omega
    obtain ⟨q, q1, q2⟩ := g3 _ hz
    simp only [q1]
    congr 1
    obtain ⟨a1, a2, a3⟩ := (isSelect0_iff _ _ _).1 q2
    apply sel_unique (f := fun p => !bitFn hb p) (by simp [a2]) (by simp [hf])
    rw [cnt_not, cnt_not, a3]

variable {ef : EliasFano} {n : Word} {xs : List Word} {hb : List Bool} (ov : Word → Nat → Word)

theorem getLow_eq (h : Good ef n xs hb) (k : Nat) (hk : k < xs.length) : getLow ov ef k = some (xs[k] &&& maskW ef.l) := by
  unfold getLow
  have hlen : k * ef.l + ef.l ≤ (xs.flatMap (lowBits · ef.l)).length := by
    rw [flatMap_lowBits_length, ← Nat.succ_mul]; exact Nat.mul_le_mul_right _ hk
  have hlb := h.lb
  obtain ⟨x, e, hx⟩ := BitVector.getBits_eq ov h.lowRep (k * ef.l) ef.l (by omega) hlen
  rw [e]; congr 1
  apply BitVec.eq_of_getLsbD_eq
  intro i hi
  rw [hx, and_maskW_bit _ _ _ hlb]
  by_cases hi' : i < ef.l
  · rw [bitFn_flatMap _ _ _ _ hk hi']
  · simp [hi']

theorem select_eq (h : Good ef n xs hb) (k : Nat) (hk : k < xs.length) : select ov ef k = some xs[k] := by
  unfold select
  rw [h.sel k hk, bind_pure_some, subU_eq _ _ (Nat.le_add_left _ _), bind_pure_some, shl_eq _ _ h.lb, bind_pure_some,
    getLow_eq ov h k hk, bind_pure_some, Nat.add_sub_cancel, combine_eq _ _ h.lb]; rfl

theorem select_none (h : Good ef n xs hb) (k : Nat) (hk : xs.length ≤ k) : select ov ef k = none := by
  unfold select Darray.select assertP
  rw [if_neg (by rw [h.ones]; omega)]; rfl

theorem hi_one (h : Good ef n xs hb) (k : Nat) (hk : k < xs.length) :
    bitFn hb (xs[k].toNat / 2^ef.l + k) = true ∧ cnt (bitFn hb) (xs[k].toNat / 2^ef.l + k) = k ∧
      xs[k].toNat / 2^ef.l + k < hb.length := by
  have hk' : k < (xs.map fun x => x.toNat / 2^ef.l).length := by rw [List.length_map]; exact hk
  have a1 := h.high.one k hk'
  have a2 := h.high.cnt k hk'
  have a3 := h.high.lt_N k hk'
  rw [List.getElem_map] at a1 a2 a3
  exact ⟨a1, a2, a3⟩

/-- the position of the zero ending the bucket of `pos` -/
theorem bucket (h : Good ef n xs hb) (hr : Rank ef hb) (pos : Word) (hp : pos ≤ n) :
    ∃ p, ef.d0.select true ef.high (pos.toNat / 2^ef.l) = some p ∧ p < hb.length ∧ cnt (bitFn hb) p ≤ xs.length ∧
      pos.toNat / 2^ef.l + cnt (bitFn hb) p = p ∧
      (∀ k (hk : k < xs.length), cnt (bitFn hb) p ≤ k → pos.toNat / 2^ef.l < xs[k].toNat / 2^ef.l) := by
  have hz : pos.toNat / 2^ef.l < cnt (fun p => !bitFn hb p) hb.length := by
    have := EFBuilder.div_mono _ _ hp ef.l
    have := h.len
    rw [cnt_not, h.high.all, List.length_map]; omega
  obtain ⟨p, p1, p2, p3⟩ := sel_exists hz
  have hle := cnt_le (bitFn hb) p
  rw [cnt_not] at p3
  have p2' : bitFn hb p = false := by simpa using p2
  have hm := cnt_mono (bitFn hb) (Nat.le_of_lt p1)
  rw [h.high.all, List.length_map] at hm
  refine ⟨p, by rw [← p3]; exact hr.sel0 p p1 p2', p1, hm, by omega, ?_⟩
  intro k hk hge
  have := h.high.lt_of_zero k (by rw [List.length_map]; exact hk) p p2' hge
  rw [List.getElem_map] at this; omega

theorem div_lt_lt (a b c : Nat) (h : a / c < b / c) : a < b := by
  rcases Nat.lt_or_ge a b with h1 | h1
  · exact h1
  · have := Nat.div_le_div_right (c := c) h1; omega

theorem sorted_le (h : Good ef n xs hb) (i j : Nat) (hij : i ≤ j) (hj : j < xs.length) :
    (xs[i]'(by omega)).toNat ≤ xs[j].toNat := by
  rcases Nat.eq_or_lt_of_le hij with e | e
  · subst e; exact Nat.le_refl _
  · exact BitVec.le_def.1 (List.pairwise_iff_getElem.1 h.sorted i j (by omega) hj e)

theorem mod_cmp (a b c : Nat) (hc : 0 < c) (h : a / c = b / c) : (a ≤ b ↔ a % c ≤ b % c) ∧ (a = b ↔ a % c = b % c) := by
  have h1 := Nat.div_add_mod a c
  have h2 := Nat.div_add_mod b c
  rw [h] at h1
  constructor <;> constructor <;> intro h <;> omega

/-- what the loops read at a one -/
theorem at_one (h : Good ef n xs hb) (q r : Nat) (hq : q < hb.length) (hf : bitFn hb q = true)
    (hc : cnt (bitFn hb) (q+1) = r) : ∃ hr : r - 1 < xs.length, 1 ≤ r ∧ cnt (bitFn hb) q = r - 1 ∧
      q = xs[r-1].toNat / 2^ef.l + (r-1) := by
  rw [cnt_succ, hf] at hc
  obtain ⟨a, b⟩ := h.high.eq_of_one q hq hf
  rw [List.length_map] at a
  rw [List.getElem_map] at b
  simp at hc
  have : r - 1 = cnt (bitFn hb) q := by omega
  refine ⟨by omega, by omega, this.symm, ?_⟩
  simp only [this]; exact b

theorem at_zero (h : Good ef n xs hb) (pos : Word) (q r : Nat) (hf : bitFn hb q = false)
    (hc : cnt (bitFn hb) (q+1) = r) (hh : pos.toNat / 2^ef.l + r = q + 1) (k : Nat) (hk : k < xs.length) (hkr : k < r) :
    xs[k].toNat < pos.toNat := by
  rw [cnt_succ, hf] at hc
  simp at hc
  have := h.high.le_of_lt k (by rw [List.length_map]; exact hk) q (by omega)
  rw [List.getElem_map] at this
  apply div_lt_lt _ _ (2^ef.l)
  have := cnt_le (bitFn hb) q
  omega

theorem rankLoop_eq (h : Good ef n xs hb) (pos : Word) (q r : Nat) (hq : q ≤ hb.length)
    (hc : cnt (bitFn hb) q = r) (hh : pos.toNat / 2^ef.l + r = q) (hr : r ≤ xs.length)
    (hge : ∀ k (hk : k < xs.length), r ≤ k → pos.toNat ≤ xs[k].toNat) :
    ∃ r', rankLoop ov ef (pos &&& maskW ef.l) q r = some r' ∧ r' ≤ xs.length ∧
      (∀ k (hk : k < xs.length), k < r' → xs[k].toNat < pos.toNat) ∧
      (∀ k (hk : k < xs.length), r' ≤ k → pos.toNat ≤ xs[k].toNat) := by
  induction q generalizing r with
  | zero => exact ⟨r, rfl, hr, fun k hk h => by simp at hc; omega, hge⟩
  | succ q ih =>
    unfold rankLoop
    rw [BitVector.access_eq h.highRep q (by omega), bind_pure_some]
    cases hf : bitFn hb q with
    | false =>
      rw [if_neg (by simp)]
      exact ⟨r, rfl, hr, fun k hk hkr => at_zero h pos q r hf hc hh k hk hkr, hge⟩
    | true =>
      obtain ⟨a, b, c, d⟩ := at_one h q r (by omega) hf hc
      rw [if_pos rfl, subU_eq _ _ b, bind_pure_some, getLow_eq ov h _ a, bind_pure_some]
      have hcmp := mod_cmp pos.toNat xs[r-1].toNat (2^ef.l) (Nat.two_pow_pos _) (by omega)
      simp only [BitVec.le_def, and_maskW_toNat _ _ h.lb]
      by_cases hle : pos.toNat % 2^ef.l ≤ xs[r-1].toNat % 2^ef.l
      · rw [if_pos hle]
        apply ih (r-1) (by omega) c (by omega) (by omega)
        intro k hk hkr
        have := sorted_le h (r-1) k hkr hk
        have := hcmp.1.2 hle
        omega
      · rw [if_neg hle]
        refine ⟨r, rfl, hr, ?_, hge⟩
        intro k hk hkr
        have := sorted_le h k (r-1) (by omega) a
        have : ¬ pos.toNat ≤ xs[r-1].toNat := fun e => hle (hcmp.1.1 e)
        omega

theorem countP_split (xs : List Word) (p : Word → Bool) (r : Nat) (hr : r ≤ xs.length)
    (h1 : ∀ k (hk : k < xs.length), k < r → p xs[k] = true) (h2 : ∀ k (hk : k < xs.length), r ≤ k → p xs[k] = false) :
    xs.countP p = r := by
  induction xs generalizing r with
  | nil => simp at hr; simp [hr]
  | cons x xs ih =>
    rw [List.countP_cons]
    cases r with
    | zero =>
      have := h2 0 (by simp) (by omega)
      rw [List.getElem_cons_zero] at this
      rw [this, ih 0 (by omega) (fun k _ h => by omega) (fun k hk _ => by
        have := h2 (k+1) (by simpa using hk) (by omega); simpa using this)]
      simp
    | succ r =>
      have := h1 0 (by simp) (by omega)
      rw [List.getElem_cons_zero] at this
      rw [this, ih r (by simpa using hr) (fun k hk h => by
          have := h1 (k+1) (by simpa using hk) (by omega); simpa using this)
        (fun k hk _ => by have := h2 (k+1) (by simpa using hk) (by omega); simpa using this)]
      simp

theorem rank_eq (h : Good ef n xs hb) (hr : Rank ef hb) (pos : Word) (hp : pos < n) :
    ∃ r, rank ov ef pos = some r ∧ r ≤ xs.length ∧
      (∀ k (hk : k < xs.length), k < r → xs[k].toNat < pos.toNat) ∧
      (∀ k (hk : k < xs.length), r ≤ k → pos.toNat ≤ xs[k].toNat) := by
  have hlt := BitVec.lt_def.1 hp
  obtain ⟨p, p1, p2, p3, p4, p5⟩ := bucket h hr pos (BitVec.le_def.2 (by omega))
  have hle : pos ≤ n := BitVec.le_def.2 (by omega)
  have hne : pos ≠ n := by intro e; rw [e] at hlt; omega
  unfold rank
  rw [h.size, assertP_eq _ hle, bind_pure_some, assertP_eq _ hr.pos, bind_pure_some, if_neg hne, shr_eq _ _ h.lb,
    bind_pure_some, shr_toNat, p1, bind_pure_some, subU_eq _ _ (by omega), bind_pure_some, lowMask_eq _ h.lb, bind_pure_some]
  apply rankLoop_eq ov h pos p _ (by omega) (by omega) (by omega) (by omega)
  intro k hk hge
  exact Nat.le_of_lt (div_lt_lt _ _ _ (p5 k hk (by omega)))

theorem rank_size (h : Good ef n xs hb) (hr : Rank ef hb) : rank ov ef n = some xs.length := by
  unfold rank
  rw [h.size, assertP_eq _ (BitVec.le_def.2 (Nat.le_refl _)), bind_pure_some, assertP_eq _ hr.pos, bind_pure_some, if_pos rfl]
  unfold numOnes; rw [h.ones]; rfl

theorem rank_countP (h : Good ef n xs hb) (hr : Rank ef hb) (pos : Word) (hp : pos < n) :
    rank ov ef pos = some (xs.countP (· < pos)) := by
  obtain ⟨r, e, h1, h2, h3⟩ := rank_eq ov h hr pos hp
  rw [e, countP_split xs _ r h1]
  · intro k hk hkr; simp only [decide_eq_true_iff]; exact BitVec.lt_def.2 (h2 k hk hkr)
  · intro k hk hkr; simp only [decide_eq_false_iff_not, BitVec.lt_def]; have := h3 k hk hkr; omega

theorem accessLoop_eq (h : Good ef n xs hb) (pos : Word) (q r : Nat) (hq : q ≤ hb.length)
    (hc : cnt (bitFn hb) q = r) (hh : pos.toNat / 2^ef.l + r = q) (hr : r ≤ xs.length)
    (hge : ∀ k (hk : k < xs.length), r ≤ k → pos.toNat < xs[k].toNat) :
    accessLoop ov ef (pos &&& maskW ef.l) q r = some (decide (pos ∈ xs)) := by
  have hno : (∀ k (hk : k < xs.length), xs[k].toNat ≠ pos.toNat) → decide (pos ∈ xs) = false := by
    intro hn
    rw [decide_eq_false_iff_not]
    intro hm
    obtain ⟨k, hk, e⟩ := List.getElem_of_mem hm
    exact hn k hk (by rw [e])
  induction q generalizing r with
  | zero =>
    unfold accessLoop
    rw [hno]
    intro k hk; simp at hc; have := hge k hk (by omega); omega
  | succ q ih =>
    unfold accessLoop
    rw [BitVector.access_eq h.highRep q (by omega), bind_pure_some]
    cases hf : bitFn hb q with
    | false =>
      rw [if_neg (by simp), hno]; rfl
      intro k hk
      rcases Nat.lt_or_ge k r with a | a
      · have := at_zero h pos q r hf hc hh k hk a; omega
      · have := hge k hk a; omega
    | true =>
      obtain ⟨a, b, c, d⟩ := at_one h q r (by omega) hf hc
      rw [if_pos rfl, subU_eq _ _ b, bind_pure_some, getLow_eq ov h _ a, bind_pure_some]
      have hcmp := mod_cmp pos.toNat xs[r-1].toNat (2^ef.l) (Nat.two_pow_pos _) (by omega)
      have hcmp' := mod_cmp xs[r-1].toNat pos.toNat (2^ef.l) (Nat.two_pow_pos _) (by omega)
      by_cases he : pos.toNat % 2^ef.l = xs[r-1].toNat % 2^ef.l
      · rw [if_pos]
        · have : pos = xs[r-1] := BitVec.eq_of_toNat_eq (hcmp.2.2 he)
          rw [decide_eq_true]; rfl
          rw [this]; exact List.getElem_mem a
        · apply BitVec.eq_of_toNat_eq
          rw [and_maskW_toNat _ _ h.lb, and_maskW_toNat _ _ h.lb, he]
      · rw [if_neg]
        · simp only [BitVec.lt_def, and_maskW_toNat _ _ h.lb]
          by_cases hle : xs[r-1].toNat % 2^ef.l < pos.toNat % 2^ef.l
          · rw [if_pos hle, hno]; rfl
            intro k hk
            rcases Nat.lt_or_ge k r with a' | a'
            · have := sorted_le h k (r-1) (by omega) a
              have : ¬ pos.toNat ≤ xs[r-1].toNat := fun e => by have := hcmp.1.1 e; omega
              omega
            · have := hge k hk a'; omega
          · rw [if_neg hle]
            apply ih (r-1) (by omega) c (by omega) (by omega)
            intro k hk hkr
            have := sorted_le h (r-1) k hkr hk
            have : ¬ xs[r-1].toNat ≤ pos.toNat := fun e => by have := hcmp'.1.1 e; omega
            omega
        · intro e
          have := congrArg BitVec.toNat e
          rw [and_maskW_toNat _ _ h.lb, and_maskW_toNat _ _ h.lb] at this
          exact he this.symm

theorem access_eq (h : Good ef n xs hb) (hr : Rank ef hb) (pos : Word) (hp : pos < n) :
    access ov ef pos = some (decide (pos ∈ xs)) := by
  have hlt := BitVec.lt_def.1 hp
  obtain ⟨p, p1, p2, p3, p4, p5⟩ := bucket h hr pos (BitVec.le_def.2 (by omega))
  unfold access
  rw [h.size, assertP_eq _ hp, bind_pure_some, assertP_eq _ hr.pos, bind_pure_some, shr_eq _ _ h.lb,
    bind_pure_some, shr_toNat, p1, bind_pure_some, subU_eq _ _ (by omega), bind_pure_some, lowMask_eq _ h.lb, bind_pure_some]
  apply accessLoop_eq ov h pos p _ (by omega) (by omega) (by omega) (by omega)
  intro k hk hge
  exact div_lt_lt _ _ _ (p5 k hk (by omega))

theorem successor1_eq (h : Good ef n xs hb) (hr : Rank ef hb) (pos : Word) (hp : pos < n) (hex : ∃ x ∈ xs, pos ≤ x) :
    ∃ y, successor1 ov ef pos = some y ∧ y ∈ xs ∧ pos ≤ y ∧ ∀ x ∈ xs, pos ≤ x → y ≤ x := by
  obtain ⟨r, e, h1, h2, h3⟩ := rank_eq ov h hr pos hp
  obtain ⟨x, hx, hpx⟩ := hex
  obtain ⟨j, hj, ej⟩ := List.getElem_of_mem hx
  have hrl : r < xs.length := by
    rcases Nat.lt_or_ge r xs.length with a | a
    · exact a
    · have := h2 j hj (by omega)
      rw [ej] at this
      have := BitVec.le_def.1 hpx; omega
  refine ⟨xs[r], ?_, List.getElem_mem hrl, BitVec.le_def.2 (h3 r hrl (Nat.le_refl _)), ?_⟩
  · unfold successor1
    rw [e, bind_pure_some, select_eq ov h r hrl]
  · intro z hz hpz
    obtain ⟨i, hi, ei⟩ := List.getElem_of_mem hz
    rw [← ei] at hpz ⊢
    apply BitVec.le_def.2
    rcases Nat.lt_or_ge i r with a | a
    · have := h2 i hi a
      have := BitVec.le_def.1 hpz; omega
    · exact sorted_le h r i a hi

theorem predecessor1_eq (h : Good ef n xs hb) (hr : Rank ef hb) (hlt : ∀ x ∈ xs, x < n) (pos : Word) (hp : pos < n)
    (hex : ∃ x ∈ xs, x ≤ pos) :
    ∃ y, predecessor1 ov ef pos = some y ∧ y ∈ xs ∧ y ≤ pos ∧ ∀ x ∈ xs, x ≤ pos → x ≤ y := by
  have hpn := BitVec.lt_def.1 hp
  have hn1 : (pos + 1).toNat = pos.toNat + 1 := by
    rw [BitVec.toNat_add, show (1 : Word).toNat = 1 from rfl, Nat.mod_eq_of_lt]
    have := n.isLt; omega
  have key : ∃ r, rank ov ef (pos + 1) = some r ∧ r ≤ xs.length ∧
      (∀ k (hk : k < xs.length), k < r → xs[k].toNat < pos.toNat + 1) ∧
      (∀ k (hk : k < xs.length), r ≤ k → pos.toNat + 1 ≤ xs[k].toNat) := by
    by_cases hc : pos.toNat + 1 = n.toNat
    · refine ⟨xs.length, ?_, Nat.le_refl _, ?_, fun k hk h => by omega⟩
      · rw [show pos + 1 = n from BitVec.eq_of_toNat_eq (by rw [hn1, hc]), rank_size ov h hr]
      · intro k hk _
        have := BitVec.lt_def.1 (hlt _ (List.getElem_mem hk)); omega
    · have := rank_eq ov h hr (pos + 1) (BitVec.lt_def.2 (by rw [hn1]; omega))
      rwa [hn1] at this
  obtain ⟨r, e, h1, h2, h3⟩ := key
  obtain ⟨x, hx, hpx⟩ := hex
  obtain ⟨j, hj, ej⟩ := List.getElem_of_mem hx
  have hrl : 0 < r := by
    rcases Nat.eq_zero_or_pos r with a | a
    · have := h3 j hj (by omega)
      rw [ej] at this
      have := BitVec.le_def.1 hpx; omega
    · exact a
  have hr1 : r - 1 < xs.length := by omega
  refine ⟨xs[r-1], ?_, List.getElem_mem hr1, BitVec.le_def.2 (by have := h2 (r-1) hr1 (by omega); omega), ?_⟩
  · unfold predecessor1
    rw [e, bind_pure_some, subU_eq _ _ hrl, bind_pure_some, select_eq ov h _ hr1]
  · intro z hz hpz
    obtain ⟨i, hi, ei⟩ := List.getElem_of_mem hz
    rw [← ei] at hpz ⊢
    apply BitVec.le_def.2
    rcases Nat.lt_or_ge i r with a | a
    · exact sorted_le h i (r-1) (by omega) hr1
    · have := h3 i hi a
      have := BitVec.le_def.1 hpz; omega

theorem pred_high (h : Good ef n xs hb) (k : Nat) (hk : k + 1 < xs.length) (q : Nat)
    (h1 : xs[k].toNat / 2^ef.l + k ≤ q) (h2 : q < xs[k+1].toNat / 2^ef.l + (k+1)) (hf : bitFn hb q = true) :
    q = xs[k].toNat / 2^ef.l + k := by
  obtain ⟨a1, a2, a3⟩ := hi_one h k (by omega)
  obtain ⟨b1, b2, b3⟩ := hi_one h (k+1) hk
  have c1 := cnt_mono (bitFn hb) h1
  have c2 := cnt_lt_of_true h2 hf
  exact sel_unique hf a1 (by omega)

theorem delta_zero (h : Good ef n xs hb) (h0 : 0 < xs.length) : delta ov ef 0 = some xs[0] := by
  unfold delta
  rw [h.sel 0 h0, bind_pure_some, getLow_eq ov h 0 h0, bind_pure_some, if_neg (by simp), subU_eq _ _ (Nat.zero_le _),
    bind_pure_some, shl_eq _ _ h.lb, bind_pure_some]
  simp only [Nat.add_zero, Nat.sub_zero]
  rw [combine_eq _ _ h.lb]; rfl

theorem delta_succ (h : Good ef n xs hb) (k : Nat) (hk : k + 1 < xs.length) :
    delta ov ef (k+1) = some (xs[k+1] - xs[k]) := by
  obtain ⟨a1, a2, a3⟩ := hi_one h k (by omega)
  obtain ⟨b1, b2, b3⟩ := hi_one h (k+1) hk
  have hle := sorted_le h k (k+1) (by omega) hk
  have hnn := Nat.zero_le (xs[k].toNat / 2^ef.l)
  have hd := Nat.div_le_div_right (c := 2^ef.l) hle
  have hp : ef.high.predecessor false (xs[k+1].toNat / 2^ef.l + (k+1) - 1) = some (xs[k].toNat / 2^ef.l + k) := by
    have := BitVector.predecessor_cases false h.highRep (xs[k+1].toNat / 2^ef.l + (k+1) - 1) (by omega)
    revert this
    cases ef.high.predecessor false (xs[k+1].toNat / 2^ef.l + (k+1) - 1) with
    | none => intro this; have := this (xs[k].toNat / 2^ef.l + k) (by omega); rw [Bool.false_xor, a1] at this; simp at this
    | some q =>
      rintro ⟨q1, q2, q3⟩
      rw [Bool.false_xor] at q2
      congr 1
      rcases Nat.lt_or_ge q (xs[k].toNat / 2^ef.l + k) with c | c
      · have := q3 _ c (by omega); rw [Bool.false_xor, a1] at this; simp at this
      · exact pred_high h k hk q c (by omega) q2
  unfold delta
  rw [h.sel (k+1) hk, bind_pure_some, getLow_eq ov h (k+1) hk, bind_pure_some, if_pos (by omega), subU_eq _ _ (by omega),
    bind_pure_some, hp, bind_pure_some, subU_eq _ _ (by omega), bind_pure_some, subU_eq _ _ (by omega), bind_pure_some,
    shl_eq _ _ h.lb, bind_pure_some, Nat.add_sub_cancel, getLow_eq ov h k (by omega), bind_pure_some]
  show some _ = some _
  congr 1
  have hs : xs[k+1].toNat / 2^ef.l + (k+1) - (xs[k].toNat / 2^ef.l + k) - 1 = xs[k+1].toNat / 2^ef.l - xs[k].toNat / 2^ef.l := by omega
  rw [hs]
  apply BitVec.eq_of_toNat_eq
  have e1 := Nat.div_add_mod xs[k+1].toNat (2^ef.l)
  have e2 := Nat.div_add_mod xs[k].toNat (2^ef.l)
  have l1 := xs[k+1].isLt
  have l2 := xs[k].isLt
  rw [BitVec.toNat_sub, BitVec.toNat_add, BitVec.toNat_sub, BitVec.toNat_shiftLeft, and_maskW_toNat _ _ h.lb, and_maskW_toNat _ _ h.lb,
    BitVec.toNat_ofNat, Nat.shiftLeft_eq]
  have hm := Nat.mul_le_mul_left (2^ef.l) hd
  have hlt : (xs[k+1].toNat / 2^ef.l - xs[k].toNat / 2^ef.l) < 2^64 := by
    have := Nat.div_le_self xs[k+1].toNat (2^ef.l); omega
  have hA : (xs[k+1].toNat / 2^ef.l - xs[k].toNat / 2^ef.l) * 2^ef.l = 2^ef.l * (xs[k+1].toNat / 2^ef.l) - 2^ef.l * (xs[k].toNat / 2^ef.l) := by
    rw [Nat.mul_comm, Nat.mul_sub]
  rw [Nat.mod_eq_of_lt hlt, hA]
  generalize 2^ef.l * (xs[k+1].toNat / 2^ef.l) = A at *
  generalize 2^ef.l * (xs[k].toNat / 2^ef.l) = B at *
  have := Nat.mod_le xs[k].toNat (2^ef.l)
  omega

theorem selectRange_eq (h : Good ef n xs hb) (k : Nat) (hk : k + 1 < xs.length) :
    selectRange ov ef k = some (xs[k], xs[k+1]) := by
  obtain ⟨a1, a2, a3⟩ := hi_one h k (by omega)
  obtain ⟨b1, b2, b3⟩ := hi_one h (k+1) hk
  have hd := Nat.div_le_div_right (c := 2^ef.l) (sorted_le h k (k+1) (by omega) hk)
  have hp : ef.high.successor false (xs[k].toNat / 2^ef.l + k + 1) = some (xs[k+1].toNat / 2^ef.l + (k+1)) := by
    have := BitVector.successor_cases false h.highRep (xs[k].toNat / 2^ef.l + k + 1) (by omega)
    have hw : hb.length ≤ 64 * wordsFor hb.length := by rw [wordsFor_eq]; omega
    revert this
    cases ef.high.successor false (xs[k].toNat / 2^ef.l + k + 1) with
    | none =>
      intro this
      have := this (xs[k+1].toNat / 2^ef.l + (k+1)) (by omega) (by omega); rw [Bool.false_xor, b1] at this; simp at this
    | some q =>
      rintro ⟨q1, q0, q2, q3⟩
      rw [Bool.false_xor] at q2
      congr 1
      rcases Nat.lt_trichotomy q (xs[k+1].toNat / 2^ef.l + (k+1)) with c | c | c
      · have := pred_high h k hk q (by omega) c q2; omega
      · exact c
      · have := q3 (xs[k+1].toNat / 2^ef.l + (k+1)) (by omega) c; rw [Bool.false_xor, b1] at this; simp at this
  unfold selectRange
  rw [assertP_eq _ (by unfold numOnes; rw [h.ones]; exact hk), bind_pure_some, h.sel k (by omega), bind_pure_some,
    getLow_eq ov h k (by omega), bind_pure_some, hp, bind_pure_some, getLow_eq ov h (k+1) hk, bind_pure_some,
    subU_eq _ _ (Nat.le_add_left _ _), bind_pure_some, shl_eq _ _ h.lb, bind_pure_some, subU_eq _ _ (Nat.le_add_left _ _), bind_pure_some,
    shl_eq _ _ h.lb, bind_pure_some, Nat.add_sub_cancel, Nat.add_sub_cancel, combine_eq _ _ h.lb, combine_eq _ _ h.lb]; rfl

end EliasFano
end Succinct
