import Mathlib.Tactic.ByContra
import Verif.Lemmas.ReleaseCart
import Verif.Props.AnyComp
import Verif.Props.ReleaseBp

/-! # C113: `cartesian_tree` of `2^30 - 1` values or more, with assertions compiled out

Such a tree needs `2^31` parentheses or more, so that with assertions it cannot be built (C50).  Without them it is built, and answers every query with
an index of the range; but the search for the least excess ignores the middle of the sequence of parentheses (C111). -/
namespace Succinct
open Spec
open Machine (W)

theorem closingPos_eq {α : Type} (comp : α → α → Bool) (v : List α) (i : Nat) (h : i ≤ v.length) : closingPos comp v i = Cart.z comp v i := by
  unfold closingPos Cart.z
  have := Cart.counts comp v i h
  have := count_add_count (Cart.rb comp v i)
  rw [← stk_length comp v i h]
  omega

/-- **C113**: the tree built with assertions is built without them too. -/
theorem C113_same_object {α : Type} (comp : α → α → Bool) (v : List α) (t : Machine.CartesianTree)
    (h : Machine.CartesianTree.build comp v = some t) : Release.cartBuild comp v = some t :=
  Release.cartBuild_below comp v t h

example : ∃ t, Machine.CartesianTree.build (fun x y : Nat => decide (x < y)) [3, 1, 2] = some t ∧ t.size = 3 ∧
    Release.cartBuild (fun x y : Nat => decide (x < y)) [3, 1, 2] = some t := by
  obtain ⟨t, e, hs, _⟩ := C108_rmq (fun x y : Nat => decide (x < y)) natLt_strictWeak [3, 1, 2] (by decide)
  exact ⟨t, e, BitVec.eq_of_toNat_eq hs, C113_same_object _ _ _ e⟩

/-- **C113**: for any comparator and `2^30 - 1` to `2^31 - 66` values the tree is built without assertions, and not with them.  `rmq(a, b)` always
answers an index of the range.  It is the right one, `m`, if that is `b` or if the place where its closing parenthesis ends is looked at by
`excess_rmq` between the closing parentheses of `b` and `a`.  It is not the right one if that is not `b` and no place from
there up to the closing parenthesis of `m` itself is looked at. -/
theorem C113_large {α : Type} (comp : α → α → Bool) (v : List α) (h1 : 2^30 - 1 ≤ v.length) (h2 : v.length < 2^31 - 65) :
    ∃ t, Machine.CartesianTree.build comp v = none ∧ Release.cartBuild comp v = some t ∧ t.size.toNat = v.length ∧
      ∀ a b : Word, a.toNat ≤ b.toNat → b.toNat < v.length →
        ∃ r, Release.cartRmq t a b = some r ∧ a.toNat ≤ r.toNat ∧ r.toNat ≤ b.toNat ∧
          ∀ m, IsFirstRunning comp v a.toNat b.toNat m →
            (m = b.toNat ∨ Seen (closingPos comp v b.toNat) (closingPos comp v a.toNat) (closingPos comp v (m + 1) + 1) → r.toNat = m) ∧
            (m ≠ b.toNat → (∀ q, closingPos comp v (m + 1) < q → q ≤ closingPos comp v m →
              ¬ Seen (closingPos comp v b.toNat) (closingPos comp v a.toNat) q) → r.toNat ≠ m) := by
  obtain ⟨e0, t, H, e, hi, hs, ht⟩ := Release.cartBuild_const comp v h1 h2
  have hl := Cart.fin_length comp v
  have hneg := Release.toI32_neg (Cart.fin comp v).length (by omega) (by omega)
  have hsz : t.bp.rs.bv.size = (Cart.fin comp v).length := hi.rs.rep.size
  refine ⟨_, e0, e, ?_, fun a b hab hb => ?_⟩
  · show (W t.bp.rs.bv.size / 2 - 1).toNat = _
    rw [hsz, hl]
    simp only [bitvec_to_nat, Nat.reducePow, Nat.reduceMod]
    omega
  by_cases hne : a.toNat = b.toNat
  · have : a = b := BitVec.eq_of_toNat_eq hne
    subst this
    refine ⟨a, by unfold Release.cartRmq; rw [if_pos rfl]; rfl, Nat.le_refl _, Nat.le_refl _, fun m hm => ?_⟩
    have := (firstRunning_heights comp v hm).1
    have := hm.1
    exact ⟨fun _ => by omega, fun c => by omega⟩
  obtain ⟨w, k, k1, k2, w1, w2, w3, w4, w5, hr⟩ := Release.cartRmq_const comp h2 hi hs ht (by omega) a.toNat b.toNat (by omega) hb
  rw [Machine.W_of, Machine.W_of] at hr
  have hseen : ∀ x y q, Seen x y q ↔ ¬ BpVector.Skipped x y q := fun x y q => by unfold Seen BpVector.Skipped; omega
  refine ⟨_, hr, ?_⟩
  rw [Machine.W_toNat _ (by split <;> omega)]
  refine ⟨by split <;> omega, by split <;> omega, fun m hm => ?_⟩
  obtain ⟨hmb, hbef, haft⟩ := firstRunning_heights comp v hm
  have ham := hm.1
  have hst : ∀ i, i ≤ v.length → (running comp v i).length = (Cart.stk comp v i).length := fun i hi => (stk_length comp v i hi).symm
  have hones := (Cart.z_succ comp v k (by omega)).2
  have hew : BpVector.exc (Cart.fin comp v) w = (Cart.stk comp v (k+1)).length + (w - (Cart.z comp v (k+1) + 1) : Nat) := by
    have h4 := excF_true (f := bitFn (Cart.fin comp v)) (show Cart.z comp v (k+1) + 1 ≤ w by omega) (fun i i1 i2 => hones i (by omega) (by omega))
    have zk2 := (Cart.z_exc comp v (k+1) (by omega)).2
    simp only [BpVector.exc] at *
    omega
  have hpos : ∀ i, b.toNat + 1 > i → a.toNat < i → Cart.z comp v b.toNat ≤ Cart.z comp v i ∧ Cart.z comp v i < Cart.z comp v a.toNat := by
    intro i i1 i2
    refine ⟨?_, Cart.z_mono comp v a.toNat i i2 (by omega)⟩
    rcases Nat.lt_or_ge i b.toNat with g | g
    · have := Cart.z_mono comp v i b.toNat g (by omega); omega
    · rw [show i = b.toNat by omega]
  rw [closingPos_eq comp v _ (by omega), closingPos_eq comp v _ (by omega), closingPos_eq comp v _ (by omega), closingPos_eq comp v _ (by omega)]
  simp only [hseen]
  refine ⟨fun hc => ?_, fun hmb' hc => ?_⟩
  · by_cases hmb' : m = b.toNat
    · have := hbef k k1 (by omega)
      rw [hst _ (by omega), hst _ (by omega), hmb'] at this
      rw [if_pos (by omega), hmb']
    · have hc := hc.resolve_left hmb'
      have hq := (Cart.z_exc comp v (m+1) (by omega)).2
      have hp := hpos (m+1) (by omega) (by omega)
      have h5 := w4 _ (by omega) (by omega) hc
      have h6 := haft b.toNat (by omega) (Nat.le_refl _)
      rw [hst _ (by omega), hst _ (by omega)] at h6
      rw [if_neg (by omega)]
      rcases Nat.lt_trichotomy m k with g | g | g
      · have := haft k g (by omega)
        rw [hst _ (by omega), hst _ (by omega)] at this
        omega
      · exact g.symm
      · have := hbef k k1 g
        rw [hst _ (by omega), hst _ (by omega)] at this
        have h7 := Cart.z_mono comp v (k+1) (m+1) (by omega) (by omega)
        have := w5 _ (by omega) (by omega) hc
        omega
  · split
    · omega
    · rintro rfl
      exact hc w w1 w2 w3

/-- **C113** for ranges of up to 4097 values, with a strict weak order: the answer is the leftmost minimum.  More generally that holds for every range
whose leftmost minimum is among its last 4097 values. -/
theorem C113_short {α : Type} (comp : α → α → Bool) (ho : StrictWeak comp) (v : List α) (h1 : 2^30 - 1 ≤ v.length) (h2 : v.length < 2^31 - 65) :
    ∃ t, Release.cartBuild comp v = some t ∧
      ∀ (a b : Word) (m : Nat), a.toNat ≤ b.toNat → b.toNat < v.length → IsLeftmostMin comp v a.toNat b.toNat m → b.toNat - m ≤ 4096 →
        Release.cartRmq t a b = some (BitVec.ofNat 64 m) := by
  obtain ⟨t, _, e, _, hq⟩ := C113_large comp v h1 h2
  refine ⟨t, e, fun a b m hab hb hm hbm => ?_⟩
  obtain ⟨r, hr, r1, r2, hr3⟩ := hq a b hab hb
  obtain ⟨m1, m2, m3, m4⟩ := leftmost_strict ho hb hm
  have sb := Cart.stk_before comp v a.toNat m (by omega) m1 (fun k hk => m3 k hk (by omega))
  have sa := Cart.stk_after comp v m b.toNat hb m2 (fun k hk k1 k2 => m4 k hk (by omega) (by omega) k2)
  have hst : ∀ i, i ≤ v.length → (running comp v i).length = (Cart.stk comp v i).length := fun i hi => (stk_length comp v i hi).symm
  -- the leftmost minimum is the first index in the running
  have hf : IsFirstRunning comp v a.toNat b.toNat m := by
    obtain ⟨m', hm'⟩ := firstRunning_exists comp v a.toNat b.toNat hab
    obtain ⟨k1, k2, k3⟩ := firstRunning_heights comp v hm'
    have := hm'.1
    have : m' = m := by
      rcases Nat.lt_trichotomy m m' with g | g | g
      · have := k2 m m1 g
        have := sa m' g k1
        rw [hst _ (by omega), hst _ (by omega)] at *
        omega
      · exact g.symm
      · have := k3 m g m2
        have := sb m' hm'.1 g
        rw [hst _ (by omega), hst _ (by omega)] at *
        omega
    rw [← this]; exact hm'
  have hrm : r.toNat = m := by
    refine (hr3 m hf).1 ?_
    by_cases hmb : m = b.toNat
    · exact Or.inl hmb
    · refine Or.inr (Or.inl ?_)
      have hge : (Cart.stk comp v (m+1)).length ≤ (Cart.stk comp v b.toNat).length := by
        by_cases hc : m + 1 = b.toNat
        · rw [hc]
        · have := sa (b.toNat - 1) (by omega) (by omega)
          rw [show b.toNat - 1 + 1 = b.toNat by omega] at this
          omega
      have hbl := (Cart.counts comp v b.toNat (by omega)).2
      unfold closingPos
      rw [hst _ (by omega), hst _ (by omega)]
      omega
  rw [hr, ← hrm]
  congr 1
  exact (Machine.W_of r).symm

/-- the values of the counterexample: a zero with `n` ones on either side -/
def valley (n : Nat) : List Nat := List.replicate n 1 ++ 0 :: List.replicate n 1

theorem valley_get (n i : Nat) (h : i < 2 * n + 1) : (valley n)[i]? = some (if i = n then 0 else 1) := by
  unfold valley
  rcases Nat.lt_trichotomy i n with g | g | g
  · rw [List.getElem?_append_left (by simpa using g), List.getElem?_replicate, if_pos g, if_neg (by omega)]
  · subst g
    rw [List.getElem?_append_right (by simp)]; simp
  · rw [List.getElem?_append_right (by simp; omega), List.length_replicate, if_neg (by omega),
      show i - n = (i - n - 1) + 1 by omega, List.getElem?_cons_succ, List.getElem?_replicate, if_pos (by omega)]

theorem valley_running (n i : Nat) (h : i ≤ 2 * n + 1) :
    (running (fun x y : Nat => decide (x < y)) (valley n) i).length = if i ≤ n then i else i - n := by
  induction i with
  | zero => simp [running]
  | succ i ih =>
    have ih := ih (by omega)
    have hg := valley_get n i (by omega)
    rw [running, List.length_cons]
    have hlt := running_lt (fun x y : Nat => decide (x < y)) (valley n) i
    by_cases hi : i = n
    · have : (running (fun x y : Nat => decide (x < y)) (valley n) i).dropWhile
          (fun k => prefers (fun x y : Nat => decide (x < y)) (valley n)[i]? (valley n)[k]?) = [] := by
        have := Cart.dropWhile_all (fun k => prefers (fun x y : Nat => decide (x < y)) (valley n)[i]? (valley n)[k]?)
          (running (fun x y : Nat => decide (x < y)) (valley n) i) [] (fun k hk => by
            have := hlt k hk
            rw [hg, valley_get n k (by omega), if_pos hi, if_neg (by omega)]
            rfl)
        rwa [List.append_nil] at this
      rw [this, if_neg (by omega), List.length_nil]; omega
    · have : (running (fun x y : Nat => decide (x < y)) (valley n) i).dropWhile
          (fun k => prefers (fun x y : Nat => decide (x < y)) (valley n)[i]? (valley n)[k]?) =
          running (fun x y : Nat => decide (x < y)) (valley n) i := by
        cases hc : running (fun x y : Nat => decide (x < y)) (valley n) i with
        | nil => rfl
        | cons k r =>
          have := hlt k (by rw [hc]; exact List.mem_cons_self)
          rw [List.dropWhile_cons, if_neg]
          rw [hg, valley_get n k (by omega), if_neg hi]
          unfold prefers
          simp only [decide_eq_true_eq]
          split <;> omega
      rw [this, ih]
      split <;> split <;> omega

/-- **C113**: without assertions the answer can be wrong.  All of `2^30 - 1` values are 1 except a 0 in the middle; in a range of
`2^21 + 1` values around it the least value is said to be a 1. -/
theorem C113_large_false :
    ∃ v : List Nat, v.length = 2^30 - 1 ∧ v[2^29 - 1]? = some 0 ∧ ∃ t r, Release.cartBuild (fun x y : Nat => decide (x < y)) v = some t ∧
      Release.cartRmq t (BitVec.ofNat 64 (2^29 - 1 - 2^20)) (BitVec.ofNat 64 (2^29 - 1 + 2^20)) = some r ∧
      2^29 - 1 - 2^20 ≤ r.toNat ∧ r.toNat ≤ 2^29 - 1 + 2^20 ∧ v[r.toNat]? = some 1 := by
  obtain ⟨n, hn⟩ : ∃ n, n = 2^29 - 1 := ⟨_, rfl⟩
  have hlen : (valley n).length = 2 * n + 1 := by
    simp only [valley, List.length_append, List.length_replicate, List.length_cons]; omega
  have hget := valley_get n
  have hrun := valley_running n
  have hcp : ∀ i, i ≤ 2*n+1 → closingPos (fun x y : Nat => decide (x < y)) (valley n) i = 2 * (2*n+1) + 1 + (if i ≤ n then i else i - n) - 2 * i :=
    fun i hi => by unfold closingPos; rw [hlen, hrun i hi]
  generalize valley n = v at *
  obtain ⟨t, _, e, _, hq⟩ := C113_large (fun x y : Nat => decide (x < y)) v (by omega) (by omega)
  have ha : (W (n - 2^20)).toNat = n - 2^20 := Machine.W_toNat _ (by omega)
  have hb : (W (n + 2^20)).toNat = n + 2^20 := Machine.W_toNat _ (by omega)
  obtain ⟨r, hr, r1, r2, hr3⟩ := hq (W (n - 2^20)) (W (n + 2^20)) (by omega) (by omega)
  rw [ha, hb] at hr3
  rw [ha] at r1
  rw [hb] at r2
  have hf : IsFirstRunning (fun x y : Nat => decide (x < y)) v (n - 2^20) (n + 2^20) n := by
    obtain ⟨m, hm⟩ := firstRunning_exists (fun x y : Nat => decide (x < y)) v (n - 2^20) (n + 2^20) (by omega)
    obtain ⟨k1, k2, k3⟩ := firstRunning_heights _ v hm
    have : m = n := by
      rcases Nat.lt_trichotomy m n with g | g | g
      · have := k3 n g (by omega)
        rw [hrun _ (by omega), hrun _ (by omega), if_pos (by omega), if_neg (by omega)] at this
        omega
      · exact g
      · have := k2 n (by omega) g
        rw [hrun _ (by omega), hrun _ (by omega), if_neg (by omega), if_neg (by omega)] at this
        omega
    subst this; exact hm
  have hcp1 := hcp (n+1) (by omega)
  have hcp2 := hcp n (by omega)
  have hcp3 := hcp (n + 2^20) (by omega)
  have hcp4 := hcp (n - 2^20) (by omega)
  rw [if_neg (by omega)] at hcp1 hcp3
  rw [if_pos (by omega)] at hcp2 hcp4
  have hne := (hr3 n hf).2 (by omega) (fun q q1 q2 => by
    rw [hcp1] at q1
    rw [hcp2] at q2
    rw [hcp3, hcp4]
    unfold Seen
    omega)
  refine ⟨v, by omega, ?_, t, r, e, ?_, ?_, ?_, ?_⟩
  · rw [← hn, hget n (by omega), if_pos rfl]
  · rw [← hn]; exact hr
  · rw [← hn]; exact r1
  · rw [← hn]; exact r2
  · rw [hget _ (by omega), if_neg hne]

/-- … while in a range of 4097 values it is right -/
example : ∃ t, Release.cartBuild (fun x y : Nat => decide (x < y)) (valley (2^29 - 1)) = some t ∧
    Release.cartRmq t (BitVec.ofNat 64 (2^29 - 1)) (BitVec.ofNat 64 (2^29 - 1 + 4096)) = some (BitVec.ofNat 64 (2^29 - 1)) := by
  obtain ⟨n, hn⟩ : ∃ n, n = 2^29 - 1 := ⟨_, rfl⟩
  rw [← hn]
  have hlen : (valley n).length = 2 * n + 1 := by
    simp only [valley, List.length_append, List.length_replicate, List.length_cons]; omega
  have hget := valley_get n
  generalize valley n = v at *
  obtain ⟨t, e, hq⟩ := C113_short (fun x y : Nat => decide (x < y)) natLt_strictWeak v (by omega) (by omega)
  have ha : (W n).toNat = n := Machine.W_toNat _ (by omega)
  have hb : (W (n + 4096)).toNat = n + 4096 := Machine.W_toNat _ (by omega)
  have hq := hq (W n) (W (n + 4096)) n
  rw [ha, hb] at hq
  refine ⟨t, e, hq (by omega) (by omega) ?_ (by omega)⟩
  refine ⟨⟨by omega, by omega, 0, by rw [hget n (by omega), if_pos rfl], fun k y _ _ _ => by simp⟩, fun k hk hm => ?_⟩
  have := hm.1
  omega

end Succinct
