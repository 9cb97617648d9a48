import Verif.Lemmas.MachineTopK
import Verif.Props.MachineBp
import Verif.Props.MachineEnum
import Verif.Props.TopKOver
import Verif.Props.Util

/-!
# C87: `topk_vector`, `nibble_vector` and `vbyte.hpp` in 64-bit arithmetic

`Verif/Model/MachineTopK.lean` runs them with wrapping 64-bit words.  The heap functions of the standard library work on elements that hold 64-bit
words; nothing is assumed of them but what the C++ standard promises.
-/
namespace Succinct
open Spec
open Machine (W)
open RSBitVector (bind_pure_some)

/-- Everything a `topk_vector` over the container `c` with the values `v` has to answer in 64-bit arithmetic: `size()`, `operator[]`, `topk` for every range and
count, its enumerators, whatever state they were in before, and rejection of ranges that are not inside the vector.  (A range of a single
position outside the vector is left to `operator[]` of the container.) -/
structure Machine.TopK.Answers {V α : Type} (c : Machine.Container V α) (lt : α → α → Bool) (h : HeapOps (Machine.QElem α)) (v : List α) (t : Machine.TopK V) : Prop where
  size : (t.size c).toNat = v.length
  get : ∀ i : Word, i.toNat < v.length → t.get c i = v[i.toNat]?
  ranges : ∀ a b : Word, a.toNat ≤ b.toNat → b.toNat < v.length →
    ∃ s, IsRanking lt v a.toNat b.toNat s ∧ s.length = b.toNat - a.toNat + 1 ∧
      (∀ k : Word, t.topk c h a b k = some ((s.take k.toNat).map fun p => (p.1, BitVec.ofNat 64 p.2))) ∧
      ∀ e0, ∃ e, t.getEnumerator c a b e0 = some e ∧
        ∀ k, e.nexts c h k = some ((List.range k).map fun i => s[i]?.map fun p => (p.1, BitVec.ofNat 64 p.2))
  rejected : ∀ a b : Word, b.toNat < a.toNat ∨ (a ≠ b ∧ v.length ≤ b.toNat) →
    (∀ k, t.topk c h a b k = none) ∧ ∀ e0, t.getEnumerator c a b e0 = none
  single : ∀ a : Word, t.get c a = none → (∀ k, t.topk c h a a k = none) ∧ ∀ e0, t.getEnumerator c a a e0 = none

theorem Spec.TotalOrder.converse {α : Type} {lt eq : α → α → Bool} (h : TotalOrder lt eq) : TotalOrder (fun x y => lt y x) eq where
  weak := h.weak.converse
  eqv := fun a b => (h.eqv a b).trans ⟨fun k => ⟨k.2, k.1⟩, fun k => ⟨k.2, k.1⟩⟩

theorem leftmost_unique {α : Type} {lt : α → α → Bool} {v : List α} {a b m m' : Nat} (h : IsLeftmostMin lt v a b m) (h' : IsLeftmostMin lt v a b m') :
    m = m' := by
  rcases Nat.lt_trichotomy m m' with hlt | he | hlt
  · exact absurd h.1 (h'.2 m hlt)
  · exact he
  · exact absurd h'.1 (h.2 m' hlt)

/-- **C87**, `topk_vector` over any container that returns what it was made from: in 64-bit arithmetic all answers are right, and ranges
outside the vector are rejected although `b - a + 1` wraps for them. -/
theorem C87_topk {V α : Type} (c : Machine.Container V α) (o : Ops α) (ho : TotalOrder o.lt o.eq) (h : HeapOps (Machine.QElem α))
    (hh : h.Valid (Machine.viComp o)) (v : List α) (hv : v.length < 2^30 - 1) (cv : V) (hb : c.build v = some cv)
    (hs : (c.size cv).toNat = v.length) (hg : ∀ i : Word, i.toNat < v.length → c.get cv i = v[i.toNat]?) :
    ∃ t, Machine.TopK.build c o v = some t ∧ t.v = cv ∧ t.Answers c o.lt h v := by
  obtain ⟨tm, em, _, hq, hrej, hone⟩ := C85_rmq (fun x y => o.lt y x) ho.weak.converse v hv
  have hval := Machine.TopKEnum.lift_valid ho hh
  obtain ⟨t0, e0, ht⟩ := C38_topk o ho _ hval v hv
  obtain ⟨t1, e1, he⟩ := C39_enumerator o ho _ hval v hv
  rw [e0] at e1; cases e1
  have hvt : t0.v = v ∧ CartesianTree.build (fun x y => o.lt y x) v = some t0.tree := by
    unfold TopK.build at e0
    simp only [Option.bind_eq_bind, Option.bind_eq_some_iff] at e0
    obtain ⟨tr, k1, k2⟩ := e0
    cases k2
    exact ⟨rfl, k1⟩
  obtain ⟨t2, e2, hr⟩ := C36_rmq (fun x y => o.lt y x) ho.weak.converse v hv
  obtain rfl := Option.some.inj (hvt.2.symm.trans e2)
  obtain ⟨⟨t3, e3, hdom⟩, _⟩ := C73_range_queries ⟨fun x y => o.lt y x, o.eq⟩ ho.converse (sortHeap _)
    (sortHeap_valid (viComp_strictWeak _ ho.converse)) v hv
  obtain rfl := Option.some.inj (hvt.2.symm.trans e3)
  have hsim : Machine.TopKEnum.Sim c t0 ⟨cv, tm⟩ := by
    refine ⟨fun a b r ha hb2 hrm => ?_, fun i x hi hx => ?_⟩
    · by_cases hab : a = b
      · subst hab
        have h1 : t0.tree.rmq a a = some a := by
          unfold CartesianTree.rmq
          rw [Machine.assert_yes (Nat.le_refl a), bind_pure_some, if_pos rfl]; rfl
        rw [h1] at hrm
        cases hrm
        exact ⟨hone _, ha, Nat.le_refl _⟩
      · have hd := (hdom a b hab).1 (by rw [hrm]; rfl)
        obtain ⟨m, k1, k2⟩ := hr a b (by omega) hd.2
        rw [hrm] at k1
        cases k1
        obtain ⟨m', k3, k4⟩ := hq (W a) (W b) (by rw [Machine.W_toNat _ ha, Machine.W_toNat _ hb2]; omega) (by rw [Machine.W_toNat _ hb2]; omega)
        rw [Machine.W_toNat _ ha, Machine.W_toNat _ hb2] at k4
        have := leftmost_unique k2 k4
        have hlt := m'.isLt
        refine ⟨?_, by omega, by omega⟩
        rw [k3, this, Machine.W_of]
    · rw [hvt.1] at hx
      have hil := (List.getElem?_eq_some_iff.1 hx).1
      show c.get cv (W i) = _
      rw [hg _ (by rw [Machine.W_toNat _ hi]; exact hil), Machine.W_toNat _ hi, hx]
  refine ⟨⟨cv, tm⟩, ?_, rfl, ⟨hs, hg, fun a b hab hbl => ?_, fun a b hab => ?_, fun a ha => ?_⟩⟩
  · unfold Machine.TopK.build
    rw [em, bind_pure_some, hb]; rfl
  · obtain ⟨s, s1, s2, _⟩ := ht a.toNat b.toNat 0 hab hbl
    refine ⟨s, s1, s2, fun k => ?_, fun en0 => ?_⟩
    · obtain ⟨s', p1, _, p3⟩ := ht a.toNat b.toNat k.toNat hab hbl
      rw [C38_unique o ho _ _ _ s' s p1 s1] at p3
      have := Machine.TopKEnum.topk_sim hsim a.isLt (by omega) k p3
      rwa [Machine.W_of, Machine.W_of] at this
    · obtain ⟨e, s', p1, p2, _, p4⟩ := he a.toNat b.toNat ⟨none, [], en0.cur.map fun p => (p.1, p.2.toNat)⟩ hab hbl
      rw [C38_unique o ho _ _ _ s' s p2 s1] at p4
      obtain ⟨e', q1, q2⟩ := Machine.TopKEnum.set_sim hsim a.isLt b.isLt _ en0 (by
        cases hc : en0.cur with
        | none => rfl
        | some p => show _ = some (p.1, W p.2.toNat); rw [Machine.W_of]) p1
      rw [Machine.W_of, Machine.W_of] at q1
      refine ⟨e', q1, fun k => ?_⟩
      rw [Machine.TopKEnum.nexts_sim hsim k q2 (p4 k), List.map_map]
      rfl
  · have hset : ∀ e0 : Machine.TopKEnum V α, e0.set c ⟨cv, tm⟩ a b = none := by
      intro e0
      unfold Machine.TopKEnum.set Machine.TopKEnum.elemFor
      have : tm.rmq a b = none := by
        apply hrej
        · intro hc
          rcases hab with hab | hab
          · omega
          · exact hab.1 (BitVec.eq_of_toNat_eq hc)
        · rcases hab with hab | hab
          · exact Or.inr hab
          · exact Or.inl hab.2
      rw [this]
      cases assertP (a ≤ b) <;> rfl
    refine ⟨fun k => ?_, hset⟩
    unfold Machine.TopK.topk Machine.TopK.getEnumerator
    simp only []
    rw [hset]; rfl
  · have hset : ∀ e0 : Machine.TopKEnum V α, e0.set c ⟨cv, tm⟩ a a = none := by
      intro e0
      unfold Machine.TopKEnum.set Machine.TopKEnum.elemFor
      simp only []
      rw [hone, bind_pure_some, show c.get cv a = none from ha]
      cases assertP (a ≤ a) <;> rfl
    refine ⟨fun k => ?_, hset⟩
    unfold Machine.TopK.topk Machine.TopK.getEnumerator
    simp only []
    rw [hset]; rfl

section
variable (h : HeapOps (Machine.QElem Word)) (hh : h.Valid (Machine.viComp wordOps)) (v : List Word) (hl : v.length < 2^30 - 1)
include hh hl

/-- **C87**, `topk_vector` over the containers of the library -/
theorem C87_topk_containers (ov : Word → Nat → Word) :
    (∃ t, Machine.TopK.build .mappableVector wordOps v = some t ∧ t.Answers .mappableVector wordOps.lt h v) ∧
    ((v.map BitVec.toNat).sum < 2^64 - 1 → ∃ t, Machine.TopK.build (.efList ov) wordOps v = some t ∧ t.Answers (.efList ov) wordOps.lt h v) ∧
    ((∀ x ∈ v, x ≠ BitVec.allOnes 64) →
      (∃ t, Machine.TopK.build (.efCompressedList ov) wordOps v = some t ∧ t.Answers (.efCompressedList ov) wordOps.lt h v) ∧
      ∃ t, Machine.TopK.build (.gammaVector ov) wordOps v = some t ∧ t.Answers (.gammaVector ov) wordOps.lt h v) ∧
    ((∀ x ∈ v, x.toNat < 2^64 - 2) →
      ∃ t, Machine.TopK.build (.gammaBitVector ov) wordOps v = some t ∧ t.Answers (.gammaBitVector ov) wordOps.lt h v) := by
  refine ⟨?_, fun hs => ?_, fun hx => ⟨?_, ?_⟩, fun hx => ?_⟩
  · obtain ⟨t, e, _, ha⟩ := C87_topk .mappableVector wordOps wordOps_total h hh v hl v rfl (Machine.W_toNat _ (by omega)) (fun i _ => rfl)
    exact ⟨t, e, ha⟩
  · obtain ⟨cv, e, k1, _, k2⟩ := C76_list v hs (by omega)
    obtain ⟨t, e, _, ha⟩ := C87_topk (.efList ov) wordOps wordOps_total h hh v hl cv e k1 (fun i _ => k2 ov i)
    exact ⟨t, e, ha⟩
  · obtain ⟨cv, e, k1, k2⟩ := C76_compressed_list v hx (by omega)
    obtain ⟨t, e, _, ha⟩ := C87_topk (.efCompressedList ov) wordOps wordOps_total h hh v hl cv e k1 (fun i _ => k2 ov i)
    exact ⟨t, e, ha⟩
  · obtain ⟨cv, e, k1, k2, _⟩ := C76_gamma_vector v hx (by omega)
    obtain ⟨t, e, _, ha⟩ := C87_topk (.gammaVector ov) wordOps wordOps_total h hh v hl cv e k1 (k2 ov)
    exact ⟨t, e, ha⟩
  · obtain ⟨cv, e, k1, k2, _⟩ := C76_gamma_bit_vector v hx (by omega)
    obtain ⟨t, e, _, ha⟩ := C87_topk (.gammaBitVector ov) wordOps wordOps_total h hh v hl cv e k1 (k2 ov)
    exact ⟨t, e, ha⟩

end

/-! ## `nibble_vector` -/

theorem machine_nibble_fold : ∀ (l : List Word) (s : NibbleVector.St) (r : NibbleVector.St),
    (l.map BitVec.toNat).foldlM NibbleVector.step s = some r →
    l.foldlM Machine.NibbleVector.step ⟨W s.size, s.nibbles, s.parity, s.cur⟩ = some ⟨W r.size, r.nibbles, r.parity, r.cur⟩
  | [], s, r, h => by
    cases h
    rfl
  | x :: l, s, r, h => by
    rw [List.map_cons, List.foldlM_cons] at h
    rw [List.foldlM_cons]
    rw [Option.bind_eq_bind, Option.bind_eq_some_iff] at h
    obtain ⟨s1, h1, h2⟩ := h
    have key : Machine.NibbleVector.step ⟨W s.size, s.nibbles, s.parity, s.cur⟩ x = some ⟨W s1.size, s1.nibbles, s1.parity, s1.cur⟩ := by
      unfold NibbleVector.step at h1
      unfold Machine.NibbleVector.step
      simp only [Option.bind_eq_bind, Option.bind_eq_some_iff] at h1
      obtain ⟨_, k1, k2⟩ := h1
      have hx : x.toNat < 16 := Machine.assert_of k1
      have hsh : (x <<< (s.parity.toNat * 4)).setWidth 8 = BitVec.ofNat 8 (x.toNat <<< (s.parity.toNat * 4)) := by
        apply BitVec.eq_of_toNat_eq
        rw [BitVec.toNat_setWidth, BitVec.toNat_ofNat, BitVec.toNat_shiftLeft]
        exact Nat.mod_mod_of_dvd _ (by decide)
      rw [Machine.assert_yes (show x < 16 from hx), bind_pure_some]
      simp only [hsh]
      have h11 : W s.size + 1 = W (s.size + 1) := by rw [show (1 : Word) = W 1 from rfl, ← Machine.W_add]
      cases hp : s.parity <;> simp only [hp, Bool.not_false, Bool.not_true, if_true, Bool.false_eq_true, if_false] at k2 ⊢ <;>
        · cases k2
          simp only [pure, h11]
    rw [key]
    exact machine_nibble_fold l s1 r h2

/-- **C87**, `nibble_vector`: built from a range of 64-bit numbers below 16; every other index is rejected -/
theorem C87_nibble_vector (l : List Word) (hl : ∀ x ∈ l, x.toNat < 16) (hlen : l.length < 2^64) :
    ∃ v, Machine.NibbleVector.build l = some v ∧ v.size.toNat = l.length ∧
      (∀ (i : Word) (h : i.toNat < l.length), ∃ b, v.get i = some b ∧ b.toNat = l[i.toNat].toNat) ∧ ∀ i : Word, l.length ≤ i.toNat → v.get i = none := by
  obtain ⟨v, h1, h2, h3, _⟩ := C45_nibble_vector (l.map BitVec.toNat) (fun a ha => by
    obtain ⟨x, hx, rfl⟩ := List.mem_map.1 ha
    exact hl x hx)
  rw [List.length_map] at h2
  have hb : Machine.NibbleVector.build l = some ⟨W v.size, v.nibbles⟩ := by
    unfold NibbleVector.build at h1
    simp only [Option.bind_eq_bind, Option.bind_eq_some_iff] at h1
    obtain ⟨s, k1, k2⟩ := h1
    have := machine_nibble_fold l ⟨0, [], false, 0⟩ s k1
    unfold Machine.NibbleVector.build
    rw [show (⟨0, [], false, 0⟩ : Machine.NibbleVector.St) = ⟨W 0, [], false, 0⟩ from rfl, this, bind_pure_some]
    simp only []
    cases hp : s.parity <;> simp only [hp, if_true, Bool.false_eq_true, if_false] at k2 ⊢ <;>
      · cases k2
        rfl
  have hsz : (W v.size).toNat = l.length := by rw [Machine.W_toNat _ (by omega), h2]
  refine ⟨_, hb, hsz, fun i hi => ?_, fun i hi => ?_⟩
  · obtain ⟨b, e, hbn⟩ := h3 i.toNat (by rw [List.length_map]; exact hi)
    refine ⟨b, ?_, by rw [hbn, List.getElem_map]⟩
    unfold NibbleVector.get at e
    unfold Machine.NibbleVector.get
    simp only [Option.bind_eq_bind, Option.bind_eq_some_iff] at e
    obtain ⟨_, _, y, k2, k3⟩ := e
    rw [Machine.assert_yes (show i < W v.size by rw [BitVec.lt_def, hsz]; exact hi), bind_pure_some]
    have e1 : (i / 2).toNat = i.toNat / 2 := by rw [BitVec.toNat_udiv]; rfl
    have e2 : (i % 2 * 4).toNat = i.toNat % 2 * 4 := by
      rw [BitVec.toNat_mul, BitVec.toNat_umod]
      show i.toNat % 2 * 4 % 2^64 = _
      omega
    unfold Machine.at_
    rw [e1, k2, bind_pure_some, e2]
    exact k3
  · unfold Machine.NibbleVector.get
    rw [assertP_none (by rw [BitVec.lt_def, hsz]; omega)]; rfl

/-! ## `vbyte.hpp` -/

theorem machine_vbyte_size (x : Word) : Machine.Vbyte.vbyteSize x = W (Vbyte.vbyteSize x) ∧ Vbyte.vbyteSize x ≤ 10 := by
  have h := Vbyte.vbyteSize_bounds x
  have hm : (Broadword.msb x).getD 0 < 64 := by
    cases hc : Broadword.msb x with
    | none => decide
    | some n => exact ((Broadword.msb_some x n).1 hc).1
  constructor
  · unfold Machine.Vbyte.vbyteSize Vbyte.vbyteSize Machine.ceilDiv Vbyte.ceilDiv
    simp only []
    apply BitVec.eq_of_toNat_eq
    simp only [bitvec_to_nat, Nat.reducePow, Nat.reduceMod]
    omega
  · unfold Vbyte.vbyteSize Vbyte.ceilDiv
    simp only []
    omega

theorem machine_vbyte_append (x : Word) : ∀ (n : Nat) (v : List (BitVec 8)), n ≤ 10 →
    Machine.Vbyte.appendLoop x n (W n - 1) v = Vbyte.appendLoop x n v
  | 0, v, _ => by
    unfold Machine.Vbyte.appendLoop
    rw [if_neg (by decide)]
    rfl
  | n + 1, v, hn => by
    unfold Machine.Vbyte.appendLoop Vbyte.appendLoop
    have e1 : W (n + 1) - 1 = W n := by rw [show (1 : Word) = W 1 from rfl, ← Machine.W_sub _ _ (by omega)]; rfl
    have e2 : (W n * 7).toNat = n * 7 := by
      rw [show (7 : Word) = W 7 from rfl, ← Machine.W_mul, Machine.W_toNat _ (by omega)]
    rw [e1, if_pos (by wn)]
    simp only [e2]
    have e3 : (W n ≠ 0) ↔ n ≠ 0 := by
      rw [show (0 : Word) = W 0 from rfl, Ne, Machine.W_inj _ _ (by omega) (by omega)]
    cases shr x (n * 7) with
    | none => rfl
    | some s =>
      rw [bind_pure_some, bind_pure_some, machine_vbyte_append x n _ (by omega)]
      simp only [e3]

theorem machine_vbyte_decode (v : List (BitVec 8)) (hv : v.length < 2^64) : ∀ (k m pos : Nat) (val : Word), pos < 2^64 → v.length - pos ≤ k → k ≤ m →
    Machine.Vbyte.decodeLoop v m (W pos) val = (Vbyte.decodeLoop v k pos val).map fun r => (r.1, W r.2)
  | 0, m, pos, val, hp, hk, _ => by
    cases m with
    | zero => rfl
    | succ m =>
      unfold Machine.Vbyte.decodeLoop Vbyte.decodeLoop Machine.at_
      rw [Machine.W_toNat _ hp, show rd v pos = none from List.getElem?_eq_none (by omega)]
      rfl
  | k + 1, 0, pos, val, hp, hk, hm => by omega
  | k + 1, m + 1, pos, val, hp, hk, hm => by
    unfold Machine.Vbyte.decodeLoop Vbyte.decodeLoop Machine.at_
    rw [Machine.W_toNat _ hp]
    by_cases hl : pos < v.length
    · rw [show rd v pos = some v[pos] from List.getElem?_eq_getElem hl, bind_pure_some, bind_pure_some]
      simp only []
      have e1 : W pos + 1 = W (pos + 1) := by rw [show (1 : Word) = W 1 from rfl, ← Machine.W_add]
      rw [e1]
      by_cases hc : v[pos] &&& 0x80 ≠ 0
      · rw [if_pos hc, if_pos hc]
        exact machine_vbyte_decode v hv k m (pos + 1) _ (by omega) (by omega) (by omega)
      · rw [if_neg hc, if_neg hc]; rfl
    · rw [show rd v pos = none from List.getElem?_eq_none (by omega)]
      rfl

/-- **C87**, `vbyte.hpp`: a code has one to ten bytes, and `decode_vbyte` at its offset returns the value and the number of bytes; at an offset
outside the vector it reads outside the vector. -/
theorem C87_vbyte (v : List (BitVec 8)) (x : Word) : ∃ code n, Machine.Vbyte.append v x = some (v ++ code, n) ∧ n.toNat = code.length ∧
    1 ≤ code.length ∧ code.length ≤ 10 ∧
    ∀ post, (v ++ code ++ post).length < 2^64 →
      (∀ off : Word, off.toNat = v.length → Machine.Vbyte.decode (v ++ code ++ post) off = some (x, n)) ∧
      ∀ off : Word, (v ++ code ++ post).length ≤ off.toNat → Machine.Vbyte.decode (v ++ code ++ post) off = none := by
  obtain ⟨code, e, hc, hd⟩ := C44_roundtrip v x
  obtain ⟨s1, s2⟩ := machine_vbyte_size x
  have hpos := (C44_size x).1
  have hn : (W (Vbyte.vbyteSize x)).toNat = code.length := by rw [Machine.W_toNat _ (by omega), hc]
  have he : ∀ (u : List (BitVec 8)), u.length < 2^64 → ∀ off : Word,
      Machine.Vbyte.decode u off = (Vbyte.decodeLoop u (u.length - off.toNat) off.toNat 0).map fun r => (r.1, W r.2 - off) := by
    intro u hu off
    unfold Machine.Vbyte.decode
    have := machine_vbyte_decode u hu (u.length - off.toNat) u.length off.toNat 0 off.isLt (Nat.le_refl _) (by omega)
    rw [Machine.W_of] at this
    rw [this]
    cases Vbyte.decodeLoop u (u.length - off.toNat) off.toNat 0 <;> rfl
  refine ⟨code, W (Vbyte.vbyteSize x), ?_, hn, by omega, by omega, fun post hp => ⟨fun off ho => ?_, fun off ho => ?_⟩⟩
  · unfold Vbyte.append at e
    simp only [Option.bind_eq_bind, Option.bind_eq_some_iff] at e
    obtain ⟨w, k1, k2⟩ := e
    unfold Machine.Vbyte.append
    simp only [s1, Machine.W_toNat _ (show Vbyte.vbyteSize x < 2^64 by omega)]
    rw [machine_vbyte_append x _ v s2, k1, bind_pure_some]
    cases k2
    rfl
  · rw [he _ hp, ho]
    have := hd post
    unfold Vbyte.decode at this
    simp only [Option.bind_eq_bind, Option.bind_eq_some_iff] at this
    obtain ⟨⟨val, pos⟩, k1, k2⟩ := this
    rw [k1]
    simp only [pure, Option.some.injEq, Prod.mk.injEq] at k2
    obtain ⟨rfl, k3⟩ := k2
    show some (val, W pos - off) = _
    have h2 : pos = v.length + Vbyte.vbyteSize val := by omega
    rw [h2, Machine.W_add, ← ho, Machine.W_of, BitVec.add_comm, BitVec.add_sub_cancel]
  · rw [he _ hp, show (v ++ code ++ post).length - off.toNat = 0 by omega]
    rfl

/-! ## cases that meet the hypotheses -/

theorem machine_viComp_strictWeak {α : Type} (o : Ops α) (ho : TotalOrder o.lt o.eq) : StrictWeak (Machine.viComp o) where
  irrefl := fun a => by rw [← Machine.TopKEnum.viComp_dec]; exact (Succinct.viComp_strictWeak o ho).irrefl _
  trans := fun a b c h1 h2 => by
    rw [← Machine.TopKEnum.viComp_dec] at h1 h2 ⊢
    exact (Succinct.viComp_strictWeak o ho).trans _ _ _ h1 h2
  incomp := fun a b c h1 h2 h3 h4 => by
    rw [← Machine.TopKEnum.viComp_dec] at h1 h2 h3 h4
    rw [← Machine.TopKEnum.viComp_dec, ← Machine.TopKEnum.viComp_dec]
    exact (Succinct.viComp_strictWeak o ho).incomp _ _ _ h1 h2 h3 h4

example : (sortHeap (Machine.viComp wordOps)).Valid (Machine.viComp wordOps) := sortHeap_valid (machine_viComp_strictWeak _ wordOps_total)

/-- `topk` of the vector 3, 9, 4, 9, 5, 2 -/
def topkCase (a b k : Word) : Option (List (Word × Word)) :=
  (Machine.TopK.build (.gammaVector fun _ _ => 0) wordOps [3, 9, 4, 9, 5, 2]).bind fun t =>
    t.topk (.gammaVector fun _ _ => 0) (sortHeap (Machine.viComp wordOps)) a b k

/-- the third query has `b - a + 1 = 0`, the last one begins after its end -/
example : topkCase 0 4 3 = some [(9, 1), (9, 3), (5, 4)] ∧ topkCase 2 2 (BitVec.allOnes 64) = some [(4, 2)] ∧
    topkCase 0 (BitVec.allOnes 64) 3 = none ∧ topkCase 3 2 0 = none := by decide +kernel

example : (Machine.NibbleVector.build [3, 15, 9]).bind (fun v => some (v, v.get 1, v.get 2, v.get 3)) =
    some (⟨3, [0xF3, 0x09]⟩, some 15, some 9, none) := by decide +kernel

example : Machine.Vbyte.append [7] 300 = some ([7, 0x82, 0x2C], 2) ∧ Machine.Vbyte.decode [7, 0x82, 0x2C, 1] 1 = some (300, 2) ∧
    Machine.Vbyte.decode [7, 0x82] 1 = none ∧ Machine.Vbyte.decode [7] (BitVec.allOnes 64) = none := by decide +kernel

end Succinct
