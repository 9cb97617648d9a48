import Verif.Lemmas.Enumerator
import Verif.Model.EnumSwap
import Mathlib.Tactic.ByContra

namespace Succinct
open Broadword Spec

theorem exchange_length {α : Type} (a : List α) (x y : Nat) : (exchange a x y).length = a.length := by simp [exchange]

theorem exchange_getElem? {α : Type} (a : List α) (x y k : Nat) (hx : x < a.length) (hy : y < a.length) :
    (exchange a x y)[k]? = a[if k = x then y else if k = y then x else k]? := by
  unfold exchange
  rw [List.getElem?_mapIdx]
  by_cases hk : k < a.length
  · rw [List.getElem?_eq_getElem hk, Option.map_some]
    have : (if k = x then y else if k = y then x else k) < a.length := by split <;> (try split) <;> omega
    rw [List.getElem?_eq_getElem this, Option.getD_some]
  · rw [if_neg (by omega), if_neg (by omega), List.getElem?_eq_none (Nat.le_of_not_lt hk)]; rfl

theorem bitFn_zeroTail (l : List Bool) (i : Nat) : bitFn (zeroTail l) i = bitFn l i := by
  unfold bitFn zeroTail
  by_cases h : i < l.length
  · simp [List.getD_eq_getElem?_getD, List.getElem?_append_left h]
  · simp only [List.getD_eq_getElem?_getD, List.getElem?_append_right (Nat.le_of_not_lt h), List.getElem?_replicate]
    rw [List.getElem?_eq_none (by omega)]
    split <;> rfl

namespace EnumSwap

/-- the memory holds the contents `a` -/
structure Holds (m : Mem) (a : List (List Bool)) : Prop where
  len : m.objs.length = a.length
  rep : ∀ (k : Nat) (l : List Bool), a[k]? = some l → ∃ o : Obj, m.objs[k]? = some o ∧ o.size = l.length ∧ Succinct.Repr (m.words o.data) l
  inj : ∀ (j k : Nat) (oj ok : Obj) (d : Nat), m.objs[j]? = some oj → m.objs[k]? = some ok → oj.data = some d → ok.data = some d → j = k

theorem wr_set {α : Type} (v : List α) (i : Nat) (x : α) (h : i < v.length) : wr v i x = some (v.set i x) := by
  unfold wr; rw [if_pos h]

theorem swap_eq (m : Mem) (x y : Nat) (hx : x < m.objs.length) (hy : y < m.objs.length) :
    m.swap x y = some ⟨exchange m.objs x y, m.heap⟩ := by
  unfold Mem.swap rd
  rw [List.getElem?_eq_getElem hx, List.getElem?_eq_getElem hy]
  simp only [Option.bind_eq_bind, Option.bind_some]
  rw [wr_set _ _ _ hx, Option.bind_some, List.getElem?_eq_getElem (by simpa using hy), Option.bind_some,
    wr_set _ _ _ (by simpa using hy), Option.bind_some, List.getElem?_eq_getElem (by simpa using hx), Option.bind_some,
    List.getElem?_eq_getElem (by simpa using hy), Option.bind_some, wr_set _ _ _ (by simpa using hx), Option.bind_some,
    List.getElem?_eq_getElem (by simpa using hy), Option.bind_some, wr_set _ _ _ (by simpa using hy), Option.bind_some]
  simp only [pure, Option.some.injEq, Mem.mk.injEq, and_true]
  apply List.ext_getElem?
  intro k
  rw [exchange_getElem? _ _ _ _ hx hy]
  by_cases hxy : x = y
  · subst hxy
    by_cases hk : k = x
    · subst hk; simp [hx]
    · have : x ≠ k := fun h => hk h.symm
      simp [hk, this]
  · by_cases hk : k = y
    · subst hk
      have : k ≠ x := fun h => hxy h.symm
      simp [hx, hy, this, hxy]
    · have h2 : y ≠ k := fun h => hk h.symm
      by_cases hk1 : k = x
      · subst hk1
        simp [hx, hy, h2, hk]
      · have h1 : x ≠ k := fun h => hk1 h.symm
        simp [h1, h2, hk, hk1]

theorem Holds.swap {m : Mem} {a : List (List Bool)} (h : Holds m a) (x y : Nat) (hx : x < a.length) (hy : y < a.length) :
    ∃ m', m.swap x y = some m' ∧ m'.heap = m.heap ∧ Holds m' (exchange a x y) := by
  have hx' : x < m.objs.length := by rw [h.len]; exact hx
  have hy' : y < m.objs.length := by rw [h.len]; exact hy
  refine ⟨_, swap_eq m x y hx' hy', rfl, ⟨by rw [exchange_length, exchange_length, h.len], ?_, ?_⟩⟩
  · intro k l hk
    rw [exchange_getElem? _ _ _ _ hx hy] at hk
    obtain ⟨o, e1, e2, e3⟩ := h.rep _ _ hk
    exact ⟨o, by rw [← e1]; exact exchange_getElem? _ _ _ _ hx' hy', e2, e3⟩
  · intro j k oj ok d hj hk dj dk
    rw [exchange_getElem? _ _ _ _ hx' hy'] at hj hk
    have := h.inj _ _ _ _ d hj hk dj dk
    split at this <;> split at this <;> (try split at this) <;> (try split at this) <;> omega

theorem Holds.drop {m : Mem} {a : List (List Bool)} (h : Holds m a) (x : Nat) (hx : x < a.length) :
    ∃ m', m.drop x = some m' ∧ Holds m' (a.set x []) := by
  have hx' : x < m.objs.length := by rw [h.len]; exact hx
  unfold Mem.drop rd
  rw [List.getElem?_eq_getElem hx']
  simp only [Option.bind_eq_bind, Option.bind_some]
  rw [wr_set _ _ _ hx', Option.bind_some]
  have hinj : ∀ (j k : Nat) (oj ok : Obj) (d : Nat), (m.objs.set x ⟨0, none⟩)[j]? = some oj → (m.objs.set x ⟨0, none⟩)[k]? = some ok → oj.data = some d →
      ok.data = some d → j = k := by
    intro j k oj ok d hj hk dj dk
    rw [List.getElem?_set] at hj hk
    split at hj
    · cases hj; cases dj
    · split at hk
      · cases hk; cases dk
      · exact h.inj _ _ _ _ d hj hk dj dk
  have hnil : Succinct.Repr [] [] := ⟨rfl, fun p => by rw [wbit_of_ge _ _ (by simp)]; simp [bitFn]⟩
  have hrep : ∀ hp, (∀ (k : Nat) (o : Obj), k ≠ x → m.objs[k]? = some o → (Mem.mk (m.objs.set x ⟨0, none⟩) hp).words o.data = m.words o.data) →
      Holds ⟨m.objs.set x ⟨0, none⟩, hp⟩ (a.set x []) := by
    intro hp hw
    refine ⟨by simp [h.len], ?_, hinj⟩
    intro k l hk
    rw [List.getElem?_set] at hk
    split at hk
    · rename_i hxk
      subst hxk
      cases hk
      exact ⟨⟨0, none⟩, by simp [hx'], rfl, hnil⟩
    · rename_i hxk
      obtain ⟨o, e1, e2, e3⟩ := h.rep _ _ hk
      refine ⟨o, by rw [List.getElem?_set, if_neg hxk]; exact e1, e2, ?_⟩
      rw [hw k o (fun h => hxk h.symm) e1]; exact e3
  cases hd : m.objs[x].data with
  | none => exact ⟨_, rfl, hrep _ (fun _ _ _ _ => rfl)⟩
  | some d =>
    refine ⟨_, rfl, hrep _ ?_⟩
    intro k o hk ho
    unfold Mem.words
    cases hod : o.data with
    | none => rfl
    | some d' =>
      have : d ≠ d' := by
        intro hc
        subst hc
        exact hk (h.inj _ _ _ _ d ho (List.getElem?_eq_getElem hx') hod hd)
      simp only [List.getElem?_set, if_neg this]

theorem Holds.vec {m : Mem} {a : List (List Bool)} (h : Holds m a) (k : Nat) (l : List Bool) (hk : a[k]? = some l) :
    ∃ v, m.vec k = some v ∧ Rep v l := by
  obtain ⟨o, e1, e2, e3⟩ := h.rep _ _ hk
  refine ⟨⟨o.size, m.words o.data⟩, ?_, ⟨e2, e3⟩⟩
  unfold Mem.vec rd
  rw [e1]; rfl

theorem Holds.ofRanges (ls : List (List Bool)) : Holds (Mem.ofRanges ls) ls := by
  have hobj : ∀ k, (Mem.ofRanges ls).objs[k]? = (ls[k]?).map fun l => Obj.mk (BitVector.ofRange l).size (some k) := by
    intro k
    unfold Mem.ofRanges
    rw [List.getElem?_map, List.getElem?_zipIdx]
    cases ls[k]? <;> simp
  refine ⟨by simp [Mem.ofRanges], ?_, ?_⟩
  · intro k l hk
    have hr := BitVector.ofRange_rep l
    refine ⟨_, by rw [hobj, hk]; rfl, hr.size, ?_⟩
    have : (Mem.ofRanges ls).words (some k) = (BitVector.ofRange l).bits := by
      simp [Mem.words, Mem.ofRanges, hk]
    rw [this]; exact hr.repr
  · intro j k oj ok d hj hk dj dk
    rw [hobj] at hj hk
    simp only [Option.map_eq_some_iff] at hj hk
    obtain ⟨_, _, rfl⟩ := hj
    obtain ⟨_, _, rfl⟩ := hk
    simp only [Option.some.injEq] at dj dk
    omega

variable {v : BitVector} {l s : List Bool}

theorem Good.zeroTail {e : Enum} {p : Nat} (h : Enum.Good l e p) : Enum.Good (zeroTail l) e p :=
  ⟨h.pos, h.avail, fun i => by rw [h.buf, bitFn_zeroTail]⟩

theorem next_core (e : Enum) (p : Nat) (hg : Enum.Good s e p) (ha : 1 ≤ e.avail) :
    ∃ e', (do let buf ← shr e.buf 1; pure (e.buf.getLsbD 0, Enum.mk (e.pos + 1) buf (wsub e.avail 1)) : Option (Bool × Enum)) =
      some (bitFn s p, e') ∧ Enum.Good s e' (p+1) ∧ e'.avail = e.avail - 1 := by
  rw [shr_eq _ _ (by omega)]
  refine ⟨_, ?_, Enum.shift_good hg 1 ha, wsub_eq _ _ ha⟩
  rw [hg.buf]
  have : 0 < e.avail := ha
  simp [this]

theorem take_core (e : Enum) (p n : Nat) (hg : Enum.Good s e p) (hn : n ≤ 64) (ha : n ≤ e.avail) :
    ∃ w e', Enum.takeAvail e n = some (w, e') ∧ w.toNat = bitsToNat ((s.drop p).take n) ∧ Enum.Weak s e' (p+n) ∧
      (n ≠ 64 → Enum.Good s e' (p+n)) ∧ (n = 64 → e'.buf = w ∧ e'.avail = 0) ∧ e'.avail = e.avail - n := by
  obtain ⟨w, e', k1, k2, k3, k4, k5⟩ := Enum.takeAvail_good e p n hg hn ha
  refine ⟨w, e', k1, k2, k3, k4, k5, ?_⟩
  unfold Enum.takeAvail at k1
  by_cases h : n = 64
  · rw [if_neg (by simpa using h)] at k1
    simp only [pure, Option.some.injEq, Prod.mk.injEq] at k1
    rw [← k1.2]; exact wsub_eq _ _ ha
  · rw [if_pos h, shl_eq _ _ (by omega), shr_eq _ _ (by omega)] at k1
    simp only [Option.bind_eq_bind, Option.bind_some, pure, Option.some.injEq, Prod.mk.injEq] at k1
    rw [← k1.2]; exact wsub_eq _ _ ha

theorem skip_tail (e1 : Enum) (p' q zs : Nat) (hg : Enum.Good s e1 p') (hq : IsSucc true s p' q) (hne : e1.buf ≠ 0) :
    ∃ e', (do
      let l ← lsb e1.buf
      let buf ← shr e1.buf l
      let buf ← shr buf 1
      pure (zs + l, Enum.mk (e1.pos + (l + 1)) buf (wsub e1.avail (l + 1))) : Option (Nat × Enum)) = some (zs + (q - p'), e') ∧
      Enum.Good s e' (q+1) ∧ e'.avail = p' + e1.avail - (q+1) := by
  obtain ⟨r, hr⟩ := lsb_exists _ hne
  obtain ⟨r1, r2, r3⟩ := (lsb_some _ _).mp hr
  have hr2 := r2
  rw [hg.buf] at hr2
  simp only [Bool.and_eq_true, decide_eq_true_eq] at hr2
  have hqr : q = p' + r := by
    have hpq := hq.1
    rcases Nat.lt_trichotomy q (p' + r) with hlt | heq | hgt
    · have := r3 (q - p') (by omega)
      rw [hg.buf, show p' + (q - p') = q by omega, (bitFn_eq_true s q).mpr hq.2.1] at this
      have h2 : q - p' < e1.avail := by omega
      simp [h2] at this
    · exact heq
    · exact absurd ((bitFn_eq_true s _).mp hr2.2) (hq.2.2 _ (by omega) hgt)
  simp only [Option.bind_eq_bind]
  rw [hr, Option.bind_some, shr_eq _ _ r1, Option.bind_some, shr_eq _ _ (by omega), Option.bind_some]
  rw [show zs + r = zs + (q - p') by omega]
  refine ⟨_, rfl, ?_, ?_⟩
  · have := Enum.shift_good hg (r+1) hr2.1
    rw [← BitVec.shiftRight_add]
    rwa [show p' + (r+1) = q + 1 by omega] at this
  · show wsub _ _ = _
    rw [wsub_eq _ _ (by omega)]; omega

theorem zero_buf (e : Enum) (p : Nat) (hg : Enum.Good s e p) :
    e.buf = 0 ↔ ∀ k, p ≤ k → k < p + e.avail → s[k]? ≠ some true := by
  constructor
  · intro hz k h1 h2 h3
    have := hg.buf (k - p)
    rw [hz, show p + (k - p) = k by omega, (bitFn_eq_true s k).mpr h3] at this
    have h4 : k - p < e.avail := by omega
    simp [h4] at this
  · intro h
    by_contra hc
    obtain ⟨r, hr⟩ := lsb_exists _ hc
    obtain ⟨r1, r2, r3⟩ := (lsb_some _ _).mp hr
    rw [hg.buf] at r2
    simp only [Bool.and_eq_true, decide_eq_true_eq] at r2
    exact h (p + r) (by omega) (by omega) ((bitFn_eq_true s _).mp r2.2)

theorem loop64 (h : Rep v l) (q : Nat) (fuel : Nat) : ∀ (e : Enum) (p zs : Nat), Enum.Good l e p → e.avail = 64 → IsSucc true l p q →
    q < p + 64 + 64 * fuel → ∃ e', Enum.skipZerosLoop v fuel e zs = some (e', zs + 64 * ((q - p)/64)) ∧
      Enum.Good l e' (p + 64 * ((q - p)/64)) ∧ e'.avail = 64 ∧ e'.buf ≠ 0 := by
  have hstop : ∀ (e : Enum) (p : Nat), Enum.Good l e p → e.avail = 64 → IsSucc true l p q → (e.buf ≠ 0 ↔ q < p + 64) := by
    intro e p hg ha hq
    rw [ne_eq, zero_buf e p hg, ha]
    constructor
    · intro hc
      by_contra hn
      exact hc (fun k h1 h2 => hq.2.2 k h1 (by omega))
    · intro hc hn
      exact hn q hq.1 hc hq.2.1
  induction fuel with
  | zero =>
    intro e p zs hg ha hq hf
    have hne := (hstop e p hg ha hq).mpr (by omega)
    have hpq := hq.1
    unfold Enum.skipZerosLoop
    rw [if_neg hne, show (q - p)/64 = 0 by omega]
    exact ⟨e, rfl, hg, ha, hne⟩
  | succ fuel ih =>
    intro e p zs hg ha hq hf
    have hpq := hq.1
    unfold Enum.skipZerosLoop
    by_cases hz : e.buf = 0
    · rw [if_pos hz]
      have hge : p + 64 ≤ q := by
        by_contra hc
        exact (hstop e p hg ha hq).mpr (by omega) hz
      have hql : q < l.length := bitFn_lt l q ((bitFn_eq_true l q).mpr hq.2.1)
      obtain ⟨e1, e1e, hg1, ha1⟩ := Enum.fillBuf_good h ⟨e.pos + e.avail, e.buf, 0⟩ (p + 64) (by simp [hg.pos, ha]) (by omega)
      simp only [Option.bind_eq_bind]
      rw [e1e, Option.bind_some]
      obtain ⟨e', k1, k2, k3, k4⟩ := ih e1 (p + 64) (zs + e.avail) hg1 ha1 ⟨hge, hq.2.1, fun r hr => hq.2.2 r (by omega)⟩ (by omega)
      refine ⟨e', ?_, ?_, k3, k4⟩
      · rw [k1, ha]; congr 2; omega
      · rwa [show p + 64 + 64 * ((q - (p + 64))/64) = p + 64 * ((q-p)/64) by omega] at k2
    · rw [if_neg hz]
      have := (hstop e p hg ha hq).mp hz
      rw [show (q - p)/64 = 0 by omega]
      exact ⟨e, rfl, hg, ha, hz⟩

theorem IsSucc.zeroTail {p q : Nat} (h : IsSucc true l p q) : IsSucc true (zeroTail l) p q := by
  refine ⟨h.1, ?_, ?_⟩
  · rw [← bitFn_eq_true, bitFn_zeroTail, bitFn_eq_true]; exact h.2.1
  · intro r h1 h2
    rw [ne_eq, ← bitFn_eq_true, bitFn_zeroTail, bitFn_eq_true]; exact h.2.2 r h1 h2

theorem skipZeros_fresh (h : Rep v l) (e : Enum) (p q : Nat) (hg : Enum.Good s e p) (hz : e.buf = 0)
    (hq : IsSucc true l (p + e.avail) q) :
    ∃ e', Enum.skipZeros v e = some (q - p, e') ∧ Enum.Good (zeroTail l) e' (q+1) ∧ e'.avail = 63 - (q - (p + e.avail)) % 64 := by
  have hql : q < l.length := bitFn_lt l q ((bitFn_eq_true l q).mpr hq.2.1)
  have hl := h.len
  have hpq := hq.1
  obtain ⟨e1, e1e, hg1, ha1⟩ := Enum.fillBuf_good h ⟨e.pos + e.avail, e.buf, 0⟩ (p + e.avail) (by simp [hg.pos]) (by omega)
  obtain ⟨e2, k1, k2, k3, k4⟩ := loop64 h q (v.bits.length + 1) e1 (p + e.avail) (0 + e.avail) hg1 ha1 hq (by omega)
  unfold Enum.skipZeros Enum.skipZerosLoop
  rw [if_pos hz]
  simp only [Option.bind_eq_bind]
  rw [e1e, Option.bind_some, k1, Option.bind_some]
  obtain ⟨e', j1, j2, j3⟩ := skip_tail e2 _ q (0 + e.avail + 64 * ((q - (p + e.avail))/64)) k2
    ⟨by omega, hq.2.1, fun r h1 => hq.2.2 r (by omega)⟩ k4
  refine ⟨e', ?_, Good.zeroTail j2, by rw [j3, k3]; omega⟩
  rw [show q - p = 0 + e.avail + 64 * ((q - (p + e.avail))/64) + (q - (p + e.avail + 64 * ((q - (p + e.avail))/64))) by omega]
  exact j1

theorem skipZeros_held (v : BitVector) (e : Enum) (p q : Nat) (hg : Enum.Good s e p) (hq : IsSucc true s p q) (hlt : q < p + e.avail) :
    ∃ e', Enum.skipZeros v e = some (q - p, e') ∧ Enum.Good s e' (q+1) ∧ e'.avail = p + e.avail - (q+1) := by
  have hne : e.buf ≠ 0 := fun hz => (zero_buf e p hg).mp hz q hq.1 hlt hq.2.1
  unfold Enum.skipZeros Enum.skipZerosLoop
  rw [if_neg hne]
  simp only [Option.bind_eq_bind, Option.bind_some]
  obtain ⟨e', j1, j2, j3⟩ := skip_tail e p q 0 hg hq hne
  rw [Nat.zero_add] at j1
  exact ⟨e', j1, j2, j3⟩

theorem take_bind (v : BitVector) (e : Enum) (n : Nat) :
    Enum.take v e n = (if e.avail < n then Enum.fillBuf v e else some e).bind (fun e => Enum.takeAvail e n) := by
  unfold Enum.take; split <;> rfl

theorem next_bind (v : BitVector) (e : Enum) :
    Enum.next v e = (if e.avail = 0 then Enum.fillBuf v e else some e).bind
      (fun e => (shr e.buf 1).bind fun buf => pure (e.buf.getLsbD 0, Enum.mk (e.pos + 1) buf (wsub e.avail 1))) := by
  unfold Enum.next; split <;> rfl

/-- one read of known length, from bits held or fetched -/
theorem step_need (v : BitVector) (e e1 : Enum) (p p' n : Nat) (op : EnumOp) (o : EnumOut) (b : Bool) (ops : List EnumOp) outs
    (hn : op.need = some n)
    (hfill : (if e.avail < n then Enum.fillBuf v e else some e) = some e1) (hw : Enum.Weak s e1 p) (hg : b = false → Enum.Good s e1 p)
    (ha : n ≤ e1.avail) (hst : StreamStep s p op o p') (hs : NoStale b (op :: ops) ((o, p') :: outs)) :
    ∃ e' b', Enum.step v e op = some (o, e') ∧ e'.pos = p' ∧ Enum.Weak s e' p' ∧ e'.avail = e1.avail - n ∧
      (b' = false → Enum.Good s e' p') ∧ NoStale b' ops outs := by
  cases hst with
  | skipZeros hq => cases hn
  | next hb =>
    cases hn
    have hg1 : Enum.Good s e1 p := by
      rcases hw with h | h
      · exact h
      · omega
    obtain ⟨e', k1, k2, k3⟩ := next_core e1 p hg1 ha
    refine ⟨e', false, ?_, k2.pos, Or.inl k2, k3, fun _ => k2, hs⟩
    have hlt : p < s.length := by
      by_contra hc
      rw [List.getElem?_eq_none (by omega)] at hb; simp at hb
    rw [bitFn_getElem? s p hlt, Option.some.injEq] at hb
    unfold Enum.step
    have hfill' : (if e.avail = 0 then Enum.fillBuf v e else some e) = some e1 := by
      rw [← hfill]
      by_cases h0 : e.avail = 0
      · rw [if_pos h0, if_pos (by omega)]
      · rw [if_neg h0, if_neg (by omega)]
    simp only [Option.bind_eq_bind] at k1 ⊢
    rw [next_bind, hfill', Option.bind_some, k1, Option.bind_some, hb]
    rfl
  | take h64 hl =>
    cases hn
    unfold Enum.step
    simp only [Option.bind_eq_bind]
    rw [take_bind, hfill, Option.bind_some]
    unfold NoStale at hs
    by_cases hgd : Enum.Good s e1 p
    · obtain ⟨w, e', k1, k2, k3, k4, k5, k6⟩ := take_core e1 p n hgd h64 ha
      refine ⟨e', _, ?_, k3.pos_eq, k3, k6, ?_, hs⟩
      · rw [k1, Option.bind_some, k2]; rfl
      · intro hb
        by_cases h : n = 64
        · obtain ⟨k7, k8⟩ := k5 h
          rw [if_pos h, ← k2] at hb
          refine k3.zero k8 ?_
          have : w.toNat = 0 := by simpa using hb
          rw [k7]; exact BitVec.eq_of_toNat_eq this
        · exact k4 h
    · have hz : e1.pos = p ∧ e1.avail = 0 := by
        rcases hw with h | h
        · exact absurd h hgd
        · exact h
      have h0 : n = 0 := by omega
      subst h0
      refine ⟨_, _, by rw [Enum.takeAvail_zero, Option.bind_some]; rfl, by simpa using hz.1, Or.inr ⟨by simpa using hz.1, ?_⟩, ?_, ?_, hs⟩
      · simp only [wsub_eq _ _ (Nat.zero_le _)]; omega
      · simp only [wsub_eq _ _ (Nat.zero_le _)]
      · intro hb
        exact absurd (hg (by simpa using hb)) hgd

theorem run_swap (i : Nat) {a : List (List Bool)} {src : List Bool} {left p : Nat} {ops : List (SwapOp EnumOp)} {outs}
    (h : SwapStream i a src left p ops outs) : ∀ (m : Mem) (e : Enum) (b : Bool), i < a.length → Holds m a →
      NoStale b (reads ops) outs → Enum.Weak src e p → (b = false → Enum.Good src e p) → e.avail = left → run i m e ops = some outs := by
  induction h with
  | nil => intro m e b _ _ _ _ _ _; rfl
  | swap hx hy _ ih =>
    intro m e b hi hm hs hw hg ha
    obtain ⟨m', k1, _, k2⟩ := hm.swap _ _ hx hy
    unfold run
    simp only [Option.bind_eq_bind]
    rw [k1, Option.bind_some]
    exact ih m' e b (by rwa [exchange_length]) k2 hs hw hg ha
  | drop hx _ ih =>
    intro m e b hi hm hs hw hg ha
    obtain ⟨m', k1, k2⟩ := hm.drop _ hx
    unfold run
    simp only [Option.bind_eq_bind]
    rw [k1, Option.bind_some]
    exact ih m' e b (by simpa using hi) k2 hs hw hg ha
  | held hn hle hst _ ih =>
    intro m e b hi hm hs hw hg ha
    obtain ⟨v, kv, _⟩ := hm.vec i _ (List.getElem?_eq_getElem hi)
    obtain ⟨e', b', k1, k2, k3, k4, k5, k6⟩ := step_need v e e _ _ _ _ _ b _ _ hn (by rw [if_neg (by omega)]) hw hg (by omega) hst hs
    unfold run
    simp only [Option.bind_eq_bind]
    rw [kv, Option.bind_some, k1, Option.bind_some, ih m e' b' hi hm k6 k3 k5 (by omega), k2]
    rfl
  | fresh hn hlt hl hp hst _ ih =>
    intro m e b hi hm hs hw hg ha
    obtain ⟨v, kv, hr⟩ := hm.vec i _ hl
    obtain ⟨e1, e1e, hg1, ha1⟩ := Enum.fillBuf_good hr e _ hw.pos_eq hp
    have h64 : ∀ {op n s p o p'}, EnumOp.need op = some n → StreamStep s p op o p' → n ≤ 64 := by
      intro op n s p o p' h1 h2
      cases h2 with
      | next => cases h1; omega
      | take h => cases h1; exact h
      | skipZeros => cases h1
    have := h64 hn hst
    obtain ⟨e', b', k1, k2, k3, k4, k5, k6⟩ := step_need v e e1 _ _ _ _ _ b _ _ hn (by rw [if_pos (by omega)]; exact e1e)
      (Or.inl (Good.zeroTail hg1)) (fun _ => Good.zeroTail hg1) (by omega) hst hs
    unfold run
    simp only [Option.bind_eq_bind]
    rw [kv, Option.bind_some, k1, Option.bind_some, ih m e' b' hi hm k6 k3 k5 (by omega), k2]
    rfl
  | zerosHeld hq hlt _ ih =>
    intro m e b hi hm hs hw hg ha
    obtain ⟨v, kv, _⟩ := hm.vec i _ (List.getElem?_eq_getElem hi)
    obtain ⟨e', k1, k2, k3⟩ := skipZeros_held v e _ _ (hg hs.1) hq (by omega)
    unfold run Enum.step
    simp only [Option.bind_eq_bind]
    rw [kv, Option.bind_some, k1, Option.bind_some]
    simp only [pure, Option.bind_some]
    rw [ih m e' false hi hm hs.2 (Or.inl k2) (fun _ => k2) (by omega), k2.pos]
    rfl
  | zerosFresh hz hl hq _ ih =>
    intro m e b hi hm hs hw hg ha
    obtain ⟨v, kv, hr⟩ := hm.vec i _ hl
    subst ha
    obtain ⟨e', k1, k2, k3⟩ := skipZeros_fresh hr e _ _ (hg hs.1) ((zero_buf e _ (hg hs.1)).mpr hz) hq
    unfold run Enum.step
    simp only [Option.bind_eq_bind]
    rw [kv, Option.bind_some, k1, Option.bind_some]
    simp only [pure, Option.bind_some]
    rw [ih m e' false hi hm hs.2 (Or.inl k2) (fun _ => k2) k3, k2.pos]
    rfl

theorem runUnary_swap (d : Option Nat) (ws : List Word) (ops : List (SwapOp UnaryOp)) : ∀ (m : Mem) (e : UEnum), m.words d = ws →
    (∀ op ∈ ops, match op with | .swap x y => x < m.objs.length ∧ y < m.objs.length | .drop _ => False | .read _ => True) →
    runUnary d m e ops = UEnum.run ws e (reads ops) := by
  induction ops with
  | nil => intro m e _ _; rfl
  | cons op ops ih =>
    intro m e hw hv
    have h1 := hv op List.mem_cons_self
    have h2 := fun o ho => hv o (List.mem_cons_of_mem _ ho)
    cases op with
    | swap x y =>
      unfold runUnary
      simp only [Option.bind_eq_bind]
      rw [swap_eq m x y h1.1 h1.2, Option.bind_some]
      refine ih _ e hw ?_
      intro o ho
      have := h2 o ho
      cases o <;> simpa [exchange_length] using this
    | drop x => exact h1.elim
    | read op =>
      unfold runUnary reads UEnum.run
      rw [hw]
      simp only [Option.bind_eq_bind]
      cases UEnum.step ws e op with
      | none => rfl
      | some r =>
        simp only [Option.bind_some]
        rw [ih m r.2 hw h2]

end EnumSwap
end Succinct
