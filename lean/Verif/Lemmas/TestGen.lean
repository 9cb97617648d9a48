import Verif.Lemmas.TestParens
import Verif.Lemmas.Contract

/-! # The generators of balanced sequences of the tests -/
namespace Succinct
namespace Test
open Spec
open BpVector (exc)
open RSBitVector (bind_pure_some)

theorem treeHelper_ok (rand : Nat → Nat) : ∀ (fuel size k : Nat), size % 2 = 1 → size ≤ fuel →
    ∃ a k', treeHelper rand fuel size k = some (a ++ [false], k') ∧ Bal a ∧ a.length + 1 = size
  | 0, size, k, h1, h2 => by omega
  | fuel+1, size, k, h1, h2 => by
    unfold treeHelper
    rw [assertP_eq _ h1, bind_pure_some]
    by_cases hs : size = 1
    · rw [if_pos hs]
      exact ⟨[], k, rfl, .nil, by simp [hs]⟩
    · rw [if_neg hs]
      dsimp only
      have hm : rand k % (size - 1) < size - 1 := Nat.mod_lt _ (by omega)
      generalize hL : 2 * (rand k % (size - 1) / 2) + 1 = left
      have hl : left ≤ size - 2 ∧ left % 2 = 1 := by omega
      rw [assertP_eq _ (by omega), bind_pure_some, subU_eq _ _ (by omega), bind_pure_some, assertP_eq _ (by omega), bind_pure_some,
        assertP_eq _ (by omega), bind_pure_some]
      obtain ⟨a, k1, e1, b1, l1⟩ := treeHelper_ok rand fuel left (k+1) hl.2 (by omega)
      obtain ⟨b, k2, e2, b2, l2⟩ := treeHelper_ok rand fuel (size - 1 - left) k1 (by omega) (by omega)
      rw [e1, bind_pure_some]
      dsimp only
      rw [e2, bind_pure_some]
      refine ⟨true :: a ++ false :: b, k2, ?_, .node b1 b2, ?_⟩
      · simp [pure]
      · simp; omega

theorem binaryTree_ok (rand : Nat → Nat) (size : Nat) (h : size % 2 = 0) (h2 : 2 ≤ size) :
    ∃ a, binaryTree rand size = some (true :: a ++ [false]) ∧ Bal a ∧ (true :: a ++ [false]).length = size := by
  unfold binaryTree
  rw [assertP_eq _ ⟨h, h2⟩, bind_pure_some]
  obtain ⟨a, k, e, b, l⟩ := treeHelper_ok rand size (size - 1) 0 (by omega) (by omega)
  rw [e]
  exact ⟨a, rfl, b, by simp; omega⟩

theorem exc_cons (x : Bool) (l : List Bool) (p : Nat) : exc (x :: l) (p+1) = (if x then 1 else -1) + exc l p := by
  have h := exc_append_right [x] l p
  have e : exc [x] 1 = if x then 1 else -1 := by
    have := excF_succ (bitFn [x]) 0
    rw [excF_zero] at this
    have hb : bitFn [x] 0 = x := rfl
    rw [hb] at this
    simpa [exc] using this
  simp only [List.length_singleton, List.singleton_append] at h
  rw [Nat.add_comm p 1, h, e]

theorem bpLoop_ok (big : Nat → Bool) : ∀ (n i : Nat) (e : Int), 0 ≤ e → e + n < 2^31 →
    ∃ l e', bpLoop big n i e = some (l, e') ∧ l.length = n ∧ e' = e + exc l n ∧ (∀ p, 0 < p → p ≤ n → 0 < e + exc l p)
  | 0, i, e, h1, h2 => ⟨[], e, rfl, rfl, by rw [exc_zero]; omega, fun p _ _ => by omega⟩
  | n+1, i, e, h1, h2 => by
    unfold bpLoop
    dsimp only
    generalize hv : (if e ≤ 1 ∧ big i = false then true else big i) = val
    have hval : val = false → 2 ≤ e := by
      intro hf
      subst hf
      split at hv
      · simp at hv
      · rename_i hc
        rcases Int.lt_or_le e 2 with k | k
        · exact absurd ⟨by omega, hv⟩ hc
        · exact k
    have hpos : 0 < e + (if val then (1 : Int) else -1) := by
      cases val with
      | true => simp; omega
      | false => have := hval rfl; simp; omega
    have hle : e + (if val then (1 : Int) else -1) ≤ e + 1 := by cases val <;> simp
    have hi : i32 (e + if val then (1 : Int) else -1) = some (e + if val then (1 : Int) else -1) := by
      unfold i32; rw [if_pos (by omega)]
    rw [hi, bind_pure_some]
    obtain ⟨l, e', k1, k2, k3, k4⟩ := bpLoop_ok big n (i+1) _ (by omega) (show e + (if val then (1 : Int) else -1) + n < 2^31 by omega)
    rw [k1, bind_pure_some]
    refine ⟨val :: l, e', rfl, by simp [k2], by rw [exc_cons, k3]; omega, fun p p1 p2 => ?_⟩
    obtain ⟨q, rfl⟩ : ∃ q, p = q + 1 := ⟨p - 1, by omega⟩
    rw [exc_cons]
    rcases Nat.eq_zero_or_pos q with rfl | hq
    · rw [exc_zero]; omega
    · have := k4 q hq (by omega); omega

theorem exc_replicate_false (m : Nat) : ∀ q, q ≤ m → exc (List.replicate m false) q = -(q : Int) := by
  intro q
  induction q with
  | zero => intro _; rw [exc_zero]; rfl
  | succ q ih =>
    intro hq
    have hb : bitFn (List.replicate m false) q = false := by
      unfold bitFn
      rw [List.getD_eq_getElem?_getD, List.getElem?_replicate, if_pos (by omega)]
      rfl
    rw [exc_false hb, ih (by omega)]
    omega

theorem exc_replicate_true (m : Nat) : ∀ q, q ≤ m → exc (List.replicate m true) q = q := by
  intro q
  induction q with
  | zero => intro _; rw [exc_zero]; rfl
  | succ q ih =>
    intro hq
    have hb : bitFn (List.replicate m true) q = true := by
      unfold bitFn
      rw [List.getD_eq_getElem?_getD, List.getElem?_replicate, if_pos (by omega)]
      rfl
    rw [exc_true hb, ih (by omega)]
    omega

theorem randomBp_ok (big : Nat → Bool) (n : Nat) (hn : n < 2^31) :
    ∃ l, randomBp big n = some l ∧ Bal l ∧ n ≤ l.length ∧ l.length ≤ 2 * n ∧ (0 < n → Matching l 0 (l.length - 1)) := by
  unfold randomBp
  obtain ⟨l, e, k1, k2, k3, k4⟩ := bpLoop_ok big n 0 0 (by omega) (by omega)
  rw [k1, bind_pure_some]
  have he0 : 0 ≤ e := by
    rcases Nat.eq_zero_or_pos n with rfl | hp
    · rw [exc_zero] at k3; omega
    · have := k4 n hp (Nat.le_refl _); omega
  have hen : e ≤ n := by
    have := excF_le (bitFn l) n
    simp only [exc] at k3
    omega
  obtain ⟨m, rfl⟩ : ∃ m : Nat, e = m := ⟨e.toNat, by omega⟩
  have hm : ((m : Int) % 2^64).toNat = m := by omega
  dsimp only
  rw [hm]
  have hex : ∀ q, q ≤ m → exc (l ++ List.replicate m false) (n + q) = m - q := by
    intro q hq
    have := exc_append_right l (List.replicate m false) q
    rw [k2, exc_replicate_false m q hq] at this
    rw [this]; omega
  have hex0 : ∀ p, p ≤ n → exc (l ++ List.replicate m false) p = exc l p := fun p hp => exc_append_left l _ p (by omega)
  have hlen : (l ++ List.replicate m false).length = n + m := by simp [k2]
  refine ⟨_, rfl, ?_, by omega, by omega, fun hp => ?_⟩
  · rw [bal_iff]
    refine ⟨fun p hp => ?_, by rw [hlen, hex m (Nat.le_refl _)]; omega⟩
    rw [hlen] at hp
    rcases Nat.lt_or_ge n p with k | k
    · have := hex (p - n) (by omega)
      rw [show n + (p - n) = p by omega] at this
      rw [this]; omega
    · rw [hex0 p k]
      rcases Nat.eq_zero_or_pos p with rfl | hp0
      · rw [exc_zero]
      · have := k4 p hp0 k; omega
  · have hmp : 0 < m := by have := k4 n hp (Nat.le_refl _); omega
    have hz := exc_zero (l ++ List.replicate m false)
    have h1 := k4 1 (by omega) hp
    have hall : ∀ q, 0 < q → q ≤ n + m - 1 → 0 < exc (l ++ List.replicate m false) q := by
      intro q q1 q2
      rcases Nat.lt_or_ge n q with k | k
      · have := hex (q - n) (by omega)
        rw [show n + (q - n) = q by omega] at this
        rw [this]; omega
      · rw [hex0 q k]
        have := k4 q q1 k; omega
    rw [matching_iff, hlen]
    refine ⟨by omega, by omega, ?_, ?_, fun q q1 q2 => by rw [hz]; exact hall q q1 q2⟩
    · have := hall 1 (by omega) (by omega)
      by_contra hc
      have h9 := exc_false (v := l ++ List.replicate m false) (i := 0) (by simpa using hc)
      rw [hz, Nat.zero_add] at h9
      omega
    · rw [show n + m - 1 + 1 = n + m by omega, hex m (Nat.le_refl _), hz]; omega

theorem bpPath_ok (size : Nat) (h : size % 2 = 0) : ∃ l, bpPath size = some l ∧ Bal l ∧ l.length = size ∧
    ∀ i, i < size / 2 → Matching l i (size - 1 - i) := by
  unfold bpPath
  rw [assertP_eq _ h]
  refine ⟨_, rfl, ?_, by simp; omega, fun i hi => ?_⟩
  all_goals
    generalize hk : size / 2 = k at *
    have hex0 : ∀ p, p ≤ k → exc (List.replicate k true ++ List.replicate k false) p = p := fun p hp => by
      rw [exc_append_left _ _ p (by simpa using hp), exc_replicate_true k p hp]
    have hex : ∀ q, q ≤ k → exc (List.replicate k true ++ List.replicate k false) (k + q) = k - q := by
      intro q hq
      have := exc_append_right (List.replicate k true) (List.replicate k false) q
      rw [List.length_replicate, exc_replicate_false k q hq, exc_replicate_true k k (Nat.le_refl _)] at this
      rw [this]; omega
    have hlen : (List.replicate k true ++ List.replicate k false).length = k + k := by simp
  · rw [bal_iff]
    refine ⟨fun p hp => ?_, by rw [hlen, hex k (Nat.le_refl _)]; omega⟩
    rw [hlen] at hp
    rcases Nat.lt_or_ge k p with g | g
    · have := hex (p - k) (by omega)
      rw [show k + (p - k) = p by omega] at this
      rw [this]; omega
    · rw [hex0 p g]; omega
  · rw [matching_iff, hlen]
    have hi0 := hex0 i (by omega)
    refine ⟨by omega, by omega, ?_, ?_, fun q q1 q2 => ?_⟩
    · rw [bitFn_eq_true, List.getElem?_append_left (by simpa using hi), List.getElem?_replicate, if_pos hi]
    · have := hex (k - i) (by omega)
      rw [show k + (k - i) = size - 1 - i + 1 by omega] at this
      rw [this, hi0]; omega
    · rcases Nat.lt_or_ge k q with g | g
      · have := hex (q - k) (by omega)
        rw [show k + (q - k) = q by omega] at this
        rw [this, hi0]; omega
      · rw [hex0 q g, hi0]; omega

end Test
end Succinct
