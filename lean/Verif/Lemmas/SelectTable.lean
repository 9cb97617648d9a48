import Verif.Lemmas.Popcount

namespace Succinct
namespace Broadword

/-- is `t` the position of the one of rank `i / 256` in the byte `i % 256` (if there is one)? -/
private def entryOk (i t : Nat) : Bool :=
  Nat.ble (bcnt (i % 256)) (i / 256) ||
    (Nat.blt t 8 && (i % 256).testBit t && Nat.beq (cnt (i % 256).testBit t) (i / 256))

private def tableOk : Nat → List Nat → Bool
  | _, [] => true
  | i, t :: ts => entryOk i t && tableOk (i+1) ts

private theorem tableOk_getElem (ts : List Nat) (i j : Nat) (h : tableOk i ts = true) (hj : j < ts.length) :
    entryOk (i+j) ts[j] = true := by
  induction ts generalizing i j with
  | nil => simp at hj
  | cons t ts ih =>
    simp only [tableOk, Bool.and_eq_true] at h
    cases j with
    | zero => exact h.1
    | succ j =>
      have := ih (i+1) j h.2 (by simpa using hj)
      rw [show i + 1 + j = i + (j+1) by omega] at this
      simpa using this

private theorem tableOk_all : tableOk 0 selectInByteTable = true := by decide +kernel
private theorem table_length : selectInByteTable.length = 2048 := by decide +kernel

/-- the contents of the table of `tables.hpp` -/
theorem table_ok (b r : Nat) (hb : b < 256) (hr : r < 8) (h : r < bcnt b) :
    ∃ e, e < 8 ∧ selectInByteTable[b ||| (r * 256)]? = some e ∧ b.testBit e = true
      ∧ cnt b.testBit e = r := by
  have e1 : b ||| (r * 256) = b + 256 * r := by
    have := Nat.two_pow_add_eq_or_of_lt (i := 8) (b := b) (by omega) r
    rw [Nat.or_comm, Nat.mul_comm, Nat.add_comm]
    exact this.symm
  have hlt : b + 256 * r < selectInByteTable.length := by rw [table_length]; omega
  have := tableOk_getElem _ 0 (b + 256*r) tableOk_all hlt
  rw [e1, List.getElem?_eq_getElem hlt]
  generalize selectInByteTable[b + 256*r] = t at *
  unfold entryOk at this
  rw [show (0 + (b + 256 * r)) % 256 = b by omega, show (0 + (b + 256 * r)) / 256 = r by omega] at this
  rw [Bool.or_eq_true, Bool.and_eq_true, Bool.and_eq_true, Nat.ble_eq, Nat.blt_eq, Nat.beq_eq] at this
  rcases this with h1 | h1
  · omega
  · exact ⟨t, h1.1.1, rfl, h1.1.2, h1.2⟩

end Broadword
end Succinct
