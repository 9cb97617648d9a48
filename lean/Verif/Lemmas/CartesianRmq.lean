import Verif.Lemmas.Cartesian

/-! `rmq` of a cartesian tree. -/
namespace Succinct
open Spec
open BpVector (exc Good)
open RSBitVector (bind_pure_some)
open Cart

namespace CartesianTree
variable {α : Type} (comp : α → α → Bool)

theorem ofBuilder_spec (v : List α) (hv : v.length < 2^30 - 1) (s : CartesianBuilder α) (h : s.OK (run comp v)) :
    ∃ t, ofBuilder s = some t ∧ t.bp.rs.bv = BitVector.ofRange (fin comp v) ∧ BpVector.Inv t.bp (fin comp v) := by
  unfold ofBuilder
  obtain ⟨b, e, i⟩ := CartesianBuilder.finalize_spec comp v s h
  obtain ⟨bv, e2, r⟩ := BitVector.ofBuilder_rep b _ i
  have hg := (fin_dyck comp v).good (by rw [fin_length]; omega)
  obtain ⟨w, e3, hw, hi⟩ := BpVector.build_inv (fin comp v) false true hg
  rw [e, bind_pure_some, e2, bind_pure_some, BitVector.eq_ofRange r, e3, bind_pure_some]
  exact ⟨_, rfl, hw, hi⟩

variable {t : CartesianTree} {v : List α}

theorem size_spec (hb : t.bp.rs.bv = BitVector.ofRange (fin comp v)) : size t = some v.length := by
  unfold size
  rw [hb, (BitVector.ofRange_rep _).size, fin_length, subU_eq _ _ (by omega)]
  congr 1; omega

theorem select0_z (hi : BpVector.Inv t.bp (fin comp v)) (i : Nat) (h : i ≤ v.length) :
    t.bp.rs.select0 (v.length - i) = some (z comp v i) := by
  have hc := fin_counts comp v
  have hl := fin_length comp v
  obtain ⟨p, e, p1, p2, p3⟩ := RSBitVector.select0_eq hi.rs (v.length - i) (by rw [← count_eq_cnt]; omega)
  rw [e]; congr 1
  apply sel_unique (f := fun p => !bitFn (fin comp v) p)
  · simp [p2]
  · simp [z_bit comp v i h]
  · rw [p3, z_cnt comp v i h]

/-- the answer in terms of the heights of the stack: the last index of the range at which the stack is lowest -/
theorem rmq_height (hv : v.length < 2^30 - 1) (hb : t.bp.rs.bv = BitVector.ofRange (fin comp v)) (hi : BpVector.Inv t.bp (fin comp v))
    (a b m : Nat) (ham : a ≤ m) (hmb : m ≤ b) (hbv : b < v.length)
    (before : ∀ j, a ≤ j → j < m → (stk comp v (m+1)).length ≤ (stk comp v (j+1)).length)
    (after : ∀ j, m < j → j ≤ b → (stk comp v (m+1)).length < (stk comp v (j+1)).length) :
    rmq t a b = some m := by
  have hg := (fin_dyck comp v).good (by rw [fin_length]; omega)
  have hl := fin_length comp v
  unfold rmq
  rw [assertP_eq _ (by omega), bind_pure_some]
  by_cases hab : a = b
  · rw [if_pos hab]; show some a = some m; congr 1; omega
  rw [if_neg hab]
  unfold rmqDistinct
  rw [size_spec comp hb, bind_pure_some, subU_eq _ _ (by omega), bind_pure_some, subU_eq _ _ (by omega), bind_pure_some,
    show v.length - b - 1 = v.length - (b+1) by omega, select0_z comp hi (b+1) (by omega), bind_pure_some]
  simp only []
  obtain ⟨zt1, zt2⟩ := z_exc comp v (b+1) (by omega)
  have ztl := z_lt comp v (b+1) (by omega)
  have hcz := z_cnt comp v (b+1) (by omega)
  have hexc : ((z comp v (b+1) : Nat) : Int) - 2 * ((v.length - (b+1) : Nat) : Int) = exc (fin comp v) (z comp v (b+1)) := by
    rw [cnt_not] at hcz
    unfold exc excF
    have := cnt_le (bitFn (fin comp v)) (z comp v (b+1))
    omega
  have hsl : ∀ i, i ≤ v.length → (stk comp v i).length ≤ i := fun i hi => by have := (counts comp v i hi).2; omega
  have hsb := hsl (b+1) (by omega)
  have h32 : toI32 (exc (fin comp v) (z comp v (b+1))) = exc (fin comp v) (z comp v (b+1)) := toI32_eq _ (by omega) (by omega)
  rw [hexc, h32, zt1, Int.add_sub_cancel]
  rw [show i32 ((stk comp v (b+1)).length : Int) = some ((stk comp v (b+1)).length : Int) by
    unfold i32; rw [if_pos (by omega)]]
  rw [bind_pure_some, BpVector.excess_eq hi.toInv0 hg.toMild _ (by omega), bind_pure_some, zt2, assertP_eq _ rfl, bind_pure_some,
    select0_z comp hi b (by omega), bind_pure_some, subU_eq _ _ (by omega), bind_pure_some, select0_z comp hi a (by omega), bind_pure_some]
  have hzab := z_mono comp v a b (by omega) (by omega)
  have hza := z_lt comp v a (by omega)
  obtain ⟨w, e, he, w1, w2, w3, w4, w5⟩ := BpVector.excessRmq_spec hi hg (z comp v b) (z comp v a) (by omega) (by omega)
  rw [he, bind_pure_some]
  simp only []
  -- the position found follows the zero of some `i = k+1`
  obtain ⟨zb1, zb2⟩ := z_exc comp v b (by omega)
  have hwb : z comp v b < w := by
    rcases Nat.lt_or_ge (z comp v b) w with g | g
    · exact g
    · have : w = z comp v b := by omega
      subst this
      have := w4 (z comp v b + 1) (by omega) (by omega)
      omega
  obtain ⟨k, k1, k2, k3, k4⟩ := z_between comp v a b (by omega) (by omega) w hwb w2
  obtain ⟨zk1, zk2⟩ := z_exc comp v (k+1) (by omega)
  have hkb : z comp v b ≤ z comp v (k+1) := by
    rcases Nat.lt_or_ge (k+1) b with g | g
    · have := z_mono comp v (k+1) b g (by omega); omega
    · rw [show k+1 = b by omega]
  have hones := (z_succ comp v k (by omega)).2
  have hw : w = z comp v (k+1) + 1 := by
    by_contra hne
    have h3 := w5 (z comp v (k+1) + 1) (by omega) (by omega)
    have h4 := excF_true (f := bitFn (fin comp v)) (show z comp v (k+1) + 1 ≤ w by omega) (fun i i1 i2 => hones i (by omega) (by omega))
    simp only [exc] at h3 zk2 w3
    omega
  subst hw
  rw [zk2] at w3
  have hcz2 := z_cnt comp v (k+1) (by omega)
  have hrank : rank0At (z comp v (k+1) + 1) e = some (v.length - k) := by
    unfold rank0At
    have := excF_le (bitFn (fin comp v)) (z comp v (k+1) + 1)
    rw [cnt_not] at hcz2
    have h6 : exc (fin comp v) (z comp v (k+1)) = 2 * (cnt (bitFn (fin comp v)) (z comp v (k+1)) : Int) - (z comp v (k+1) : Nat) := rfl
    have := cnt_le (bitFn (fin comp v)) (z comp v (k+1))
    rw [assertP_eq _ (by simp only [exc] at *; omega), bind_pure_some]
    show some _ = some _
    congr 1
    omega
  rw [hrank, bind_pure_some, subU_eq _ _ (by omega), bind_pure_some, BitVector.access_eq hi.rs.rep _ (by omega), bind_pure_some,
    Nat.add_sub_cancel, z_bit comp v (k+1) (by omega), assertP_eq _ rfl, bind_pure_some]
  have hpick : pick v.length b e ((stk comp v (b+1)).length : Int) (v.length - k) = some m := by
    unfold pick
    -- all candidates
    have hall : ∀ i, a < i → i ≤ b → e ≤ (stk comp v i).length := by
      intro i i1 i2
      have h3 := (z_exc comp v i (by omega)).2
      have h4 := z_mono comp v a i i1 (by omega)
      have h5 : z comp v b ≤ z comp v i := by
        rcases Nat.lt_or_ge i b with g | g
        · have := z_mono comp v i b g (by omega); omega
        · rw [show i = b by omega]
      have := w4 (z comp v i + 1) (by omega) (by omega)
      omega
    have hleft : ∀ i, k + 1 < i → i ≤ b → e < (stk comp v i).length := by
      intro i i1 i2
      have h3 := (z_exc comp v i (by omega)).2
      have h4 := z_mono comp v (k+1) i i1 (by omega)
      have h5 : z comp v b ≤ z comp v i := by
        rcases Nat.lt_or_ge i b with g | g
        · have := z_mono comp v i b g (by omega); omega
        · rw [show i = b by omega]
      have := w5 (z comp v i + 1) (by omega) (by omega)
      omega
    by_cases hge : e ≥ ((stk comp v (b+1)).length : Int)
    · rw [if_pos hge]; congr 1
      by_contra hne
      have := after b (by omega) (Nat.le_refl _)
      have := hall (m+1) (by omega) (by omega)
      omega
    · rw [if_neg hge, subU_eq _ _ (by omega)]; congr 1
      have hmb' : m ≠ b := by
        intro hc
        subst hc
        have := before k k1 (by omega); omega
      rcases Nat.lt_trichotomy m k with g | g | g
      · have := after k g (by omega)
        have := hall (m+1) (by omega) (by omega)
        omega
      · omega
      · have := before k k1 g
        have := hleft (m+1) (by omega) (by omega)
        omega
  rw [hpick, bind_pure_some, assertP_eq _ (by omega), bind_pure_some, assertP_eq _ (by omega), bind_pure_some]
  rfl

theorem rmq_spec (hv : v.length < 2^30 - 1) (hb : t.bp.rs.bv = BitVector.ofRange (fin comp v)) (hi : BpVector.Inv t.bp (fin comp v))
    (a b m : Nat) (ham : a ≤ m) (hmb : m ≤ b) (hbv : b < v.length)
    (h1 : ∀ k (hk : k < v.length), a ≤ k → k < m → comp (v[m]'(by omega)) v[k] = true)
    (h2 : ∀ k (hk : k < v.length), m < k → k ≤ b → comp v[k] (v[m]'(by omega)) = false) :
    rmq t a b = some m :=
  rmq_height comp hv hb hi a b m ham hmb hbv (stk_before comp v a m (by omega) ham h1) (stk_after comp v m b hbv hmb h2)

end CartesianTree

/-- in a strict weak order the leftmost minimum is strictly below what precedes it in the range -/
theorem leftmost_strict {α : Type} {lt : α → α → Bool} (ho : StrictWeak lt) {v : List α} {a b m : Nat} (hb : b < v.length)
    (h : IsLeftmostMin lt v a b m) :
    a ≤ m ∧ m ≤ b ∧ (∀ k (hk : k < v.length) (hm : m < v.length), a ≤ k → k < m → lt v[m] v[k] = true) ∧
      (∀ k (hk : k < v.length) (hm : m < v.length), a ≤ k → k ≤ b → lt v[k] v[m] = false) := by
  obtain ⟨⟨h1, h2, x, hx, hmin⟩, hleft⟩ := h
  have hm : m < v.length := by omega
  rw [List.getElem?_eq_getElem hm] at hx
  have hx := Option.some.inj hx
  subst hx
  refine ⟨h1, h2, fun k hk _ k1 k2 => ?_, fun k hk _ k1 k2 => hmin k _ k1 k2 (List.getElem?_eq_getElem hk)⟩
  by_contra hc
  have hc : lt v[m] v[k] = false := by simpa using hc
  apply hleft k k2
  refine ⟨k1, by omega, v[k], List.getElem?_eq_getElem hk, fun j y j1 j2 hy => ?_⟩
  have hkm := hmin k _ k1 (by omega) (List.getElem?_eq_getElem hk)
  have hym := hmin j _ j1 j2 hy
  -- `v[m]` and `v[k]` are equivalent; nothing is below `v[m]`
  by_contra hlt
  have hlt : lt y v[k] = true := by simpa using hlt
  by_cases hmy : lt v[m] y = true
  · have := ho.trans _ _ _ hmy hlt; rw [hc] at this; simp at this
  · have := ho.incomp y v[m] v[k] hym (by simpa using hmy) hc hkm
    rw [hlt] at this; simp at this

/-- every nonempty range has a leftmost minimum -/
theorem leftmost_exists {α : Type} {lt : α → α → Bool} (ho : StrictWeak lt) (v : List α) (a b : Nat) (hab : a ≤ b) (hb : b < v.length) :
    ∃ m, IsLeftmostMin lt v a b m := by
  classical
  have hex : ∃ m, IsMinAt lt v a b m := by
    induction b with
    | zero =>
      refine ⟨0, by omega, by omega, v[0], List.getElem?_eq_getElem _, fun k y k1 k2 hy => ?_⟩
      have : k = 0 := by omega
      subst this
      rw [List.getElem?_eq_getElem hb] at hy
      rw [← Option.some.inj hy]; exact ho.irrefl _
    | succ b ih =>
      rcases Nat.lt_or_ge b a with g | g
      · have : a = b+1 := by omega
        subst this
        refine ⟨b+1, by omega, by omega, v[b+1], List.getElem?_eq_getElem _, fun k y k1 k2 hy => ?_⟩
        have : k = b+1 := by omega
        subst this
        rw [List.getElem?_eq_getElem hb] at hy
        rw [← Option.some.inj hy]; exact ho.irrefl _
      · obtain ⟨m, m1, m2, x, hx, hmin⟩ := ih g (by omega)
        by_cases hlt : lt v[b+1] x = true
        · refine ⟨b+1, by omega, by omega, v[b+1], List.getElem?_eq_getElem _, fun k y k1 k2 hy => ?_⟩
          rcases Nat.lt_or_ge b k with q | q
          · have : k = b+1 := by omega
            subst this
            rw [List.getElem?_eq_getElem hb] at hy
            rw [← Option.some.inj hy]; exact ho.irrefl _
          · by_contra hc
            have := ho.trans _ _ _ (by simpa using hc : lt y v[b+1] = true) hlt
            rw [hmin k y k1 q hy] at this; simp at this
        · refine ⟨m, m1, by omega, x, hx, fun k y k1 k2 hy => ?_⟩
          rcases Nat.lt_or_ge b k with q | q
          · have : k = b+1 := by omega
            subst this
            rw [List.getElem?_eq_getElem hb] at hy
            rw [← Option.some.inj hy]; simpa using hlt
          · exact hmin k y k1 q hy
  exact ⟨Nat.find hex, Nat.find_spec hex, fun k hk => Nat.find_min hex hk⟩

end Succinct
