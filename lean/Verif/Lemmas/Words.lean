import Verif.Model.BitVector
import Verif.Lemmas.SpecBits

/-! Word sequences as bit sequences. -/
namespace Succinct
open Spec

/-- bit `p` of a sequence of words; `false` beyond the end -/
def wbit (ws : List Word) (p : Nat) : Bool := (ws.getD (p/64) 0).getLsbD (p%64)

/-- `ws` represents `l`: right number of words, right bits, zero padding -/
structure Repr (ws : List Word) (l : List Bool) : Prop where
  len : ws.length = wordsFor l.length
  bit : ∀ p, wbit ws p = bitFn l p

theorem wbit_of_ge (ws : List Word) (p : Nat) (h : ws.length ≤ p/64) : wbit ws p = false := by
  unfold wbit
  rw [List.getD_eq_getElem?_getD, List.getElem?_eq_none h]; simp

theorem wbit_append (ws vs : List Word) (p : Nat) :
    wbit (ws ++ vs) p = if p/64 < ws.length then wbit ws p else wbit vs (p - 64*ws.length) := by
  unfold wbit
  rw [List.getD_eq_getElem?_getD, List.getD_eq_getElem?_getD, List.getD_eq_getElem?_getD, List.getElem?_append]
  split
  · rfl
  · rename_i h
    rw [show (p - 64*ws.length)/64 = p/64 - ws.length by omega, show (p - 64*ws.length) % 64 = p % 64 by omega]

theorem wbit_nil (p : Nat) : wbit [] p = false := by simp [wbit]

theorem wbit_singleton (w : Word) (p : Nat) : wbit [w] p = w.getLsbD p := by
  unfold wbit
  by_cases h : p < 64
  · rw [show p/64 = 0 by omega, show p%64 = p by omega]; rfl
  · rw [List.getD_eq_getElem?_getD, List.getElem?_eq_none (by simp; omega), BitVec.getLsbD_of_ge w p (by omega)]; simp

theorem wbit_cons (w : Word) (ws : List Word) (p : Nat) :
    wbit (w :: ws) p = if p < 64 then w.getLsbD p else wbit ws (p - 64) := by
  have := wbit_append [w] ws p
  simp only [List.singleton_append, List.length_singleton, wbit_singleton] at this
  rw [this]
  by_cases h : p < 64
  · rw [if_pos (by omega), if_pos h]
  · rw [if_neg (by omega), if_neg h]

theorem wbit_set (ws : List Word) (i : Nat) (v : Word) (h : i < ws.length) (p : Nat) :
    wbit (ws.set i v) p = if p/64 = i then v.getLsbD (p%64) else wbit ws p := by
  unfold wbit
  rw [List.getD_eq_getElem?_getD, List.getD_eq_getElem?_getD, List.getElem?_set]
  by_cases h1 : p/64 = i
  · simp [h1, h]
  · rw [if_neg (fun h => h1 h.symm), if_neg h1]

theorem wbit_replicate_zero (n p : Nat) : wbit (List.replicate n (0 : Word)) p = false := by
  unfold wbit
  rw [List.getD_eq_getElem?_getD, List.getElem?_replicate]
  split <;> simp

theorem rd_eq (ws : List Word) (i : Nat) (h : i < ws.length) : rd ws i = some ws[i] := by
  unfold rd; rw [List.getElem?_eq_getElem h]

/-- a word of the sequence, bit by bit -/
theorem getElem_getLsbD (ws : List Word) (i t : Nat) (h : i < ws.length) (ht : t < 64) :
    ws[i].getLsbD t = wbit ws (64*i+t) := by
  unfold wbit
  rw [show (64*i+t)/64 = i by omega, show (64*i+t)%64 = t by omega, List.getD_eq_getElem?_getD,
    List.getElem?_eq_getElem h]; rfl

theorem getElem_getLsbD' (ws : List Word) (i t : Nat) (h : i < ws.length) :
    ws[i].getLsbD t = (decide (t < 64) && wbit ws (64*i+t)) := by
  by_cases ht : t < 64
  · rw [getElem_getLsbD ws i t h ht]; simp [ht]
  · rw [BitVec.getLsbD_of_ge _ _ (by omega)]; simp [ht]

theorem wr_eq {α} (v : List α) (i : Nat) (x : α) (h : i < v.length) : wr v i x = some (v.set i x) := by
  unfold wr; rw [if_pos h]

theorem shl_eq (x : Word) (k : Nat) (h : k < 64) : shl x k = some (x <<< k) := by unfold shl; rw [if_pos h]
theorem shr_eq (x : Word) (k : Nat) (h : k < 64) : shr x k = some (x >>> k) := by unfold shr; rw [if_pos h]
theorem subU_eq (a b : Nat) (h : b ≤ a) : subU a b = some (a - b) := by unfold subU; rw [if_pos h]
theorem assertP_eq (p : Prop) [Decidable p] (h : p) : assertP p = some () := by unfold assertP; rw [if_pos h]

theorem wordsFor_eq (n : Nat) : wordsFor n = (n + 63) / 64 := rfl

/-- extensionality through bits -/
theorem wbit_ext {ws vs : List Word} (hl : ws.length = vs.length) (h : ∀ p, wbit ws p = wbit vs p) : ws = vs := by
  apply List.ext_getElem hl
  intro i h1 h2
  apply BitVec.eq_of_getLsbD_eq
  intro t ht
  rw [getElem_getLsbD _ _ _ h1 ht, getElem_getLsbD _ _ _ h2 ht, h]

/-! bit functions of list operations -/

theorem bitFn_append (l m : List Bool) (p : Nat) :
    bitFn (l ++ m) p = if p < l.length then bitFn l p else bitFn m (p - l.length) := by
  unfold bitFn
  rw [List.getD_eq_getElem?_getD, List.getD_eq_getElem?_getD, List.getD_eq_getElem?_getD, List.getElem?_append]
  split <;> rfl

theorem bitFn_nil (p : Nat) : bitFn [] p = false := by simp [bitFn]

theorem bitFn_singleton (b : Bool) (p : Nat) : bitFn [b] p = (decide (p = 0) && b) := by
  unfold bitFn
  cases p <;> simp

theorem bitFn_replicate (n : Nat) (b : Bool) (p : Nat) :
    bitFn (List.replicate n b) p = (decide (p < n) && b) := by
  unfold bitFn
  rw [List.getD_eq_getElem?_getD, List.getElem?_replicate]
  split <;> rename_i h <;> simp [h]

theorem bitFn_set (l : List Bool) (i : Nat) (b : Bool) (h : i < l.length) (p : Nat) :
    bitFn (l.set i b) p = if p = i then b else bitFn l p := by
  unfold bitFn
  rw [List.getD_eq_getElem?_getD, List.getD_eq_getElem?_getD, List.getElem?_set]
  by_cases h1 : p = i
  · simp [h1, h]
  · rw [if_neg (fun h => h1 h.symm), if_neg h1]

theorem bitFn_take (l : List Bool) (n p : Nat) : bitFn (l.take n) p = (decide (p < n) && bitFn l p) := by
  unfold bitFn
  rw [List.getD_eq_getElem?_getD, List.getD_eq_getElem?_getD, List.getElem?_take]
  split <;> rename_i h <;> simp [h]

theorem bitFn_reverse (l : List Bool) (p : Nat) :
    bitFn l.reverse p = (decide (p < l.length) && bitFn l (l.length - 1 - p)) := by
  unfold bitFn
  rw [List.getD_eq_getElem?_getD, List.getD_eq_getElem?_getD]
  by_cases h : p < l.length
  · rw [List.getElem?_reverse h]; simp [h]
  · rw [List.getElem?_eq_none (by simp; omega)]; simp [h]

@[simp] theorem lowBits_length (x : Word) (n : Nat) : (lowBits x n).length = n := by simp [lowBits]

theorem bitFn_lowBits (x : Word) (n p : Nat) : bitFn (lowBits x n) p = (decide (p < n) && x.getLsbD p) := by
  unfold bitFn lowBits
  rw [List.getD_eq_getElem?_getD, List.getElem?_map]
  by_cases h : p < n
  · rw [List.getElem?_range h]; simp [h]
  · rw [List.getElem?_eq_none (by simp; omega)]; simp [h]

theorem bitFn_ext {l m : List Bool} (hl : l.length = m.length) (h : ∀ p, bitFn l p = bitFn m p) : l = m := by
  apply List.ext_getElem hl
  intro i h1 h2
  have := h i
  unfold bitFn at this
  rw [List.getD_eq_getElem?_getD, List.getD_eq_getElem?_getD, List.getElem?_eq_getElem h1, List.getElem?_eq_getElem h2] at this
  exact this

/-- no spurious bits at or above `len` -/
theorem shr_eq_zero_iff (x : Word) (len : Nat) : x >>> len = 0 ↔ ∀ i, len ≤ i → x.getLsbD i = false := by
  constructor
  · intro h i hi
    have : (x >>> len).getLsbD (i - len) = false := by rw [h]; simp
    rw [BitVec.getLsbD_ushiftRight, show len + (i - len) = i by omega] at this
    exact this
  · intro h
    apply BitVec.eq_of_getLsbD_eq
    intro i hi
    rw [BitVec.getLsbD_ushiftRight, h _ (by omega)]; simp

end Succinct
