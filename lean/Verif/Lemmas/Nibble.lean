import Verif.Model.Nibble
import Verif.Lemmas.RSBitVector

namespace Succinct.NibbleVector
open RSBitVector (bind_pure_some)

theorem getD_in (l : List Nat) (d : Nat) {n : Nat} (h : n < l.length) : l.getD n d = l[n] := by
  rw [List.getD_eq_getElem?_getD, List.getElem?_eq_getElem h]; rfl
theorem getD_out (l : List Nat) (d : Nat) {n : Nat} (h : l.length ≤ n) : l.getD n d = d := by
  rw [List.getD_eq_getElem?_getD, List.getElem?_eq_none h]; rfl

/-- loop invariant of the constructor after the elements `l` -/
structure Inv (s : St) (l : List Nat) : Prop where
  size : s.size = l.length
  parity : s.parity = decide (l.length % 2 = 1)
  len : s.nibbles.length = l.length / 2
  done : ∀ (j a b : Nat), l[2*j]? = some a → l[2*j+1]? = some b → s.nibbles[j]? = some (BitVec.ofNat 8 (a + 16*b))
  cur : if l.length % 2 = 1 then l[l.length - 1]?.map (BitVec.ofNat 8) = some s.cur else s.cur = 0

theorem nib_or : ∀ a b : Fin 16, BitVec.ofNat 8 a.val ||| BitVec.ofNat 8 (b.val <<< (true.toNat * 4)) = BitVec.ofNat 8 (a.val + 16 * b.val) := by
  decide +kernel

theorem nib_zero : ∀ b : Fin 16, 0 ||| BitVec.ofNat 8 (b.val <<< (false.toNat * 4)) = BitVec.ofNat 8 b.val := by
  decide +kernel

theorem step_inv {s : St} {l : List Nat} (hi : Inv s l) (hl : ∀ a ∈ l, a < 16) {x : Nat} (hx : x < 16) : ∃ s', step s x = some s' ∧ Inv s' (l ++ [x]) := by
  unfold step
  rw [assertP_eq _ hx, bind_pure_some]
  simp only []
  by_cases hp : l.length % 2 = 1
  · have hpar : s.parity = true := by rw [hi.parity]; simp [hp]
    have hcur := hi.cur
    rw [if_pos hp] at hcur
    rw [hpar]
    have hlt : l.length - 1 < l.length := by omega
    rw [List.getElem?_eq_getElem hlt, Option.map_some] at hcur
    have hcur' := Option.some.inj hcur
    have ha := hl _ (List.getElem_mem hlt)
    have hor := nib_or ⟨_, ha⟩ ⟨x, hx⟩
    simp only [] at hor
    rw [← hcur', hor]
    refine ⟨_, rfl, ?_⟩
    constructor
    · simp [hi.size]
    · simp; omega
    · simp [hi.len]; omega
    · intro j a b h1 h2
      simp only []
      have hj := List.getElem?_eq_some_iff.1 h2
      obtain ⟨hj, _⟩ := hj
      simp at hj
      by_cases hjl : 2*j+1 = l.length
      · rw [hjl, List.getElem?_concat_length] at h2
        rw [List.getElem?_append_left (by omega)] at h1
        have : 2*j = l.length - 1 := by omega
        simp only [this] at h1
        rw [List.getElem?_eq_getElem hlt] at h1
        cases h1; cases h2
        have : j = s.nibbles.length := by rw [hi.len]; omega
        rw [this, List.getElem?_concat_length]
      · rw [List.getElem?_append_left (by omega)] at h1 h2
        rw [List.getElem?_append_left (by rw [hi.len]; omega)]
        exact hi.done j a b h1 h2
    · rw [if_neg (by simp; omega)]
  · have hpar : s.parity = false := by rw [hi.parity]; simp; omega
    have hcur := hi.cur
    rw [if_neg hp] at hcur
    rw [hpar, hcur]
    have := nib_zero ⟨x, hx⟩
    simp only [] at this
    rw [this]
    refine ⟨_, rfl, ?_⟩
    constructor
    · simp [hi.size]
    · simp; omega
    · simp [hi.len]; omega
    · intro j a b h1 h2
      obtain ⟨hj, _⟩ := List.getElem?_eq_some_iff.1 h2
      simp at hj
      rw [List.getElem?_append_left (by omega)] at h1 h2
      exact hi.done j a b h1 h2
    · rw [if_pos (by simp; omega)]; simp

theorem foldlM_inv (l pre : List Nat) (s : St) (hi : Inv s pre) (hl : ∀ a ∈ pre ++ l, a < 16) :
    ∃ s', l.foldlM step s = some s' ∧ Inv s' (pre ++ l) := by
  induction l generalizing pre s with
  | nil => exact ⟨s, rfl, by simpa using hi⟩
  | cons x l ih =>
    obtain ⟨s1, h1, h2⟩ := step_inv hi (fun a ha => hl a (by simp [ha])) (hl x (by simp))
    obtain ⟨s2, h3, h4⟩ := ih (pre ++ [x]) s1 h2 (by simpa using hl)
    refine ⟨s2, ?_, by simpa using h4⟩
    rw [List.foldlM_cons, h1, bind_pure_some, h3]

theorem nib_low : ∀ a b : Fin 16, (BitVec.ofNat 8 (a.val + 16*b.val) >>> 0) &&& 0x0F = BitVec.ofNat 8 a.val := by decide +kernel
theorem nib_high : ∀ a b : Fin 16, (BitVec.ofNat 8 (a.val + 16*b.val) >>> 4) &&& 0x0F = BitVec.ofNat 8 b.val := by decide +kernel

/-- what a finished vector stores -/
theorem build_spec (l : List Nat) (hl : ∀ a ∈ l, a < 16) : ∃ v, build l = some v ∧ v.size = l.length ∧ v.nibbles.length = (l.length + 1) / 2 ∧
    ∀ j, j < (l.length + 1) / 2 → v.nibbles[j]? = some (BitVec.ofNat 8 (l.getD (2*j) 0 + 16 * l.getD (2*j+1) 0)) := by
  obtain ⟨s, h1, hi⟩ := foldlM_inv l [] ⟨0, [], false, 0⟩ ⟨rfl, rfl, rfl, by simp, by simp⟩ (by simpa using hl)
  rw [List.nil_append] at hi
  unfold build
  rw [h1, bind_pure_some]
  have hd : ∀ j, j < l.length / 2 → s.nibbles[j]? = some (BitVec.ofNat 8 (l.getD (2*j) 0 + 16 * l.getD (2*j+1) 0)) := by
    intro j hj
    rw [getD_in _ _ (by omega), getD_in _ _ (by omega)]
    exact hi.done j _ _ (List.getElem?_eq_getElem (by omega)) (List.getElem?_eq_getElem (by omega))
  by_cases hp : l.length % 2 = 1
  · rw [if_pos (by rw [hi.parity]; simp [hp])]
    refine ⟨_, rfl, hi.size, by simp [hi.len]; omega, ?_⟩
    intro j hj
    have hcur := hi.cur
    rw [if_pos hp] at hcur
    by_cases hjl : j = l.length / 2
    · simp only []
      rw [show j = s.nibbles.length by rw [hi.len, hjl], List.getElem?_concat_length, hi.len]
      have hlt : l.length - 1 < l.length := by omega
      rw [List.getElem?_eq_getElem hlt, Option.map_some] at hcur
      rw [← hcur, getD_in _ _ (by omega), getD_out _ _ (by omega)]
      simp only [show 2 * (l.length / 2) = l.length - 1 by omega]; rfl
    · simp only []
      rw [List.getElem?_append_left (by rw [hi.len]; omega)]
      exact hd j (by omega)
  · rw [if_neg (by rw [hi.parity]; simp; omega)]
    exact ⟨_, rfl, hi.size, by simp [hi.len]; omega, fun j hj => hd j (by omega)⟩

theorem get_spec (l : List Nat) (hl : ∀ a ∈ l, a < 16) (v : NibbleVector) (hv : build l = some v) (i : Nat) (hi : i < l.length) :
    get v i = some (BitVec.ofNat 8 l[i]) := by
  obtain ⟨v', h1, h2, h3, h4⟩ := build_spec l hl
  rw [hv] at h1; cases h1
  unfold get
  rw [assertP_eq _ (by omega), bind_pure_some, rd, h4 (i/2) (by omega), bind_pure_some]
  have hd : ∀ j, l.getD j 0 < 16 := by
    intro j
    by_cases hj : j < l.length
    · rw [getD_in _ _ hj]; exact hl _ (List.getElem_mem hj)
    · rw [getD_out _ _ (by omega)]; omega
  by_cases hp : i % 2 = 1
  · have := nib_high ⟨_, hd (2*(i/2))⟩ ⟨_, hd (2*(i/2)+1)⟩
    simp only [] at this
    rw [hp, Nat.one_mul, this, getD_in _ _ (by omega)]
    simp only [show 2 * (i / 2) + 1 = i by omega]; rfl
  · have := nib_low ⟨_, hd (2*(i/2))⟩ ⟨_, hd (2*(i/2)+1)⟩
    simp only [] at this
    rw [show i % 2 = 0 by omega, Nat.zero_mul, this, getD_in _ _ (by omega)]
    simp only [show 2 * (i / 2) = i by omega]; rfl

end Succinct.NibbleVector
