import Verif.Spec.Bits
import Verif.Lemmas.Cnt

/-! Connection between the specification on lists and `cnt`. -/
namespace Succinct
open Spec

/-- the bit function of a list, `false` beyond the end -/
def bitFn (l : List Bool) : Nat → Bool := fun i => l.getD i false

theorem count_take_eq_cnt (l : List Bool) (p : Nat) : (l.take p).count true = cnt (bitFn l) p := by
  induction p with
  | zero => simp
  | succ p ih =>
    rw [List.take_add_one, List.count_append, ih, cnt_succ]
    congr 1
    unfold bitFn
    rw [List.getD_eq_getElem?_getD]
    rcases h : l[p]? with _ | b
    · simp
    · cases b <;> simp

theorem rank1_eq_cnt (l : List Bool) (p : Nat) : rank1 l p = cnt (bitFn l) p := count_take_eq_cnt l p

theorem count_eq_cnt (l : List Bool) : l.count true = cnt (bitFn l) l.length := by
  rw [← count_take_eq_cnt, List.take_length]

theorem count_add_count (l : List Bool) : l.count true + l.count false = l.length := by
  induction l with
  | nil => rfl
  | cons b l ih => cases b <;> simp <;> omega

theorem rank0_eq (l : List Bool) (p : Nat) (h : p ≤ l.length) : rank0 l p = p - rank1 l p := by
  unfold rank0 rank1
  have : (l.take p).count true + (l.take p).count false = (l.take p).length := by
    exact count_add_count _
  rw [List.length_take, Nat.min_eq_left h] at this
  omega

theorem rank0_eq_cnt (l : List Bool) (p : Nat) (h : p ≤ l.length) :
    rank0 l p = cnt (fun i => !bitFn l i) p := by
  rw [rank0_eq l p h, cnt_not, rank1_eq_cnt]

theorem bitFn_eq_true (l : List Bool) (p : Nat) : bitFn l p = true ↔ l[p]? = some true := by
  unfold bitFn
  rw [List.getD_eq_getElem?_getD]
  rcases h : l[p]? with _ | b <;> simp

theorem isSelect1_iff (l : List Bool) (k p : Nat) :
    IsSelect1 l k p ↔ bitFn l p = true ∧ cnt (bitFn l) p = k := by
  unfold IsSelect1; rw [bitFn_eq_true, rank1_eq_cnt]

theorem isSelect0_iff (l : List Bool) (k p : Nat) :
    IsSelect0 l k p ↔ p < l.length ∧ bitFn l p = false ∧ p - cnt (bitFn l) p = k := by
  unfold IsSelect0
  constructor
  · rintro ⟨h1, h2⟩
    have hp : p < l.length := by
      rcases Nat.lt_or_ge p l.length with h | h
      · exact h
      · rw [List.getElem?_eq_none h] at h1; simp at h1
    refine ⟨hp, ?_, ?_⟩
    · unfold bitFn; rw [List.getD_eq_getElem?_getD, h1]; rfl
    · rw [← h2, rank0_eq l p (Nat.le_of_lt hp), rank1_eq_cnt]
  · rintro ⟨hp, h1, h2⟩
    refine ⟨?_, ?_⟩
    · unfold bitFn at h1
      rw [List.getD_eq_getElem?_getD] at h1
      rw [List.getElem?_eq_getElem hp] at h1 ⊢
      simpa using h1
    · rw [← h2, rank0_eq l p (Nat.le_of_lt hp), rank1_eq_cnt]

theorem bitFn_wordBits (x : BitVec 64) : bitFn (wordBits x) = x.getLsbD := by
  funext i
  unfold bitFn wordBits
  rw [List.getD_eq_getElem?_getD, List.getElem?_map]
  by_cases h : i < 64
  · rw [List.getElem?_range h]; rfl
  · rw [List.getElem?_eq_none (by simp; omega), BitVec.getLsbD_of_ge _ _ (by omega)]; rfl

@[simp] theorem wordBits_length (x : BitVec 64) : (wordBits x).length = 64 := by simp [wordBits]

theorem bitFn_drop (l : List Bool) (a : Nat) : bitFn (l.drop a) = fun i => bitFn l (a + i) := by
  funext i
  unfold bitFn
  rw [List.getD_eq_getElem?_getD, List.getD_eq_getElem?_getD, List.getElem?_drop]

theorem bitFn_of_ge (l : List Bool) (i : Nat) (h : l.length ≤ i) : bitFn l i = false := by
  unfold bitFn; rw [List.getD_eq_getElem?_getD, List.getElem?_eq_none h]; rfl

theorem bitFn_lt (l : List Bool) (i : Nat) (h : bitFn l i = true) : i < l.length := by
  rcases Nat.lt_or_ge i l.length with h1 | h1
  · exact h1
  · rw [bitFn_of_ge l i h1] at h; simp at h

theorem bitFn_getElem? (l : List Bool) (i : Nat) (h : i < l.length) : l[i]? = some (bitFn l i) := by
  unfold bitFn; rw [List.getD_eq_getElem?_getD, List.getElem?_eq_getElem h]; rfl

end Succinct
