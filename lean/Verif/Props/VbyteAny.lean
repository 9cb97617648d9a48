import Verif.Spec.VbyteAny
import Verif.Props.Util
import Mathlib.Data.List.Induction
import Mathlib.Tactic.Tauto
import Mathlib.Tactic.Ring
import Mathlib.Tactic.Positivity

/-!
# C100: `decode_vbyte` on arbitrary bytes

`C44` and `C87` are about codes that `append_vbyte` wrote.  Here the bytes are arbitrary.
-/
namespace Succinct
open Spec Vbyte
open RSBitVector (bind_pure_some)

theorem digits128_concat (cs : List (BitVec 8)) (c : BitVec 8) : digits128 (cs ++ [c]) = 128 * digits128 cs + c.toNat % 128 := by
  unfold digits128; rw [List.foldl_append]; rfl

theorem vb_step : ∀ c : BitVec 8, (c &&& 0x80 ≠ 0 ↔ 128 ≤ c.toNat) ∧ (c &&& 0x7F).toNat = c.toNat % 128 := by decide +kernel

theorem vb_val (val : Word) (c : BitVec 8) : (val <<< 7 ||| (c &&& 0x7F).setWidth 64).toNat = (128 * val.toNat + c.toNat % 128) % 2^64 := by
  have h := (vb_step c).2
  have hlt : c.toNat % 128 < 128 := Nat.mod_lt _ (by decide)
  rw [BitVec.toNat_or, BitVec.toNat_shiftLeft, BitVec.toNat_setWidth, h, Nat.mod_eq_of_lt (a := c.toNat % 128) (by omega)]
  have e : val.toNat <<< 7 % 2^64 = (val.toNat % 2^57) <<< 7 := by
    rw [Nat.shiftLeft_eq, Nat.shiftLeft_eq]; omega
  rw [e, ← Nat.shiftLeft_add_eq_or_of_lt (i := 7) (by omega), Nat.shiftLeft_eq]
  omega

theorem vb_loop (v : List (BitVec 8)) (cs : List (BitVec 8)) (c : BitVec 8) (rest : List (BitVec 8)) (pos fuel : Nat) (val : Word) (a : Nat)
    (hv : v.drop pos = cs ++ c :: rest) (hcs : ∀ b ∈ cs, 128 ≤ b.toNat) (hc : c.toNat < 128) (hf : cs.length < fuel) (ha : val.toNat = a % 2^64) :
    decodeLoop v fuel pos val = some (BitVec.ofNat 64 ((cs ++ [c]).foldl (fun a b => 128 * a + b.toNat % 128) a), pos + cs.length + 1) := by
  induction cs generalizing pos fuel val a with
  | nil =>
    obtain ⟨f, rfl⟩ : ∃ f, fuel = f + 1 := ⟨fuel - 1, by simp at hf; omega⟩
    rw [decodeLoop]
    have hr : rd v pos = some c := by
      have := congrArg (·[0]?) hv
      simpa [rd, List.getElem?_drop] using this
    rw [hr, bind_pure_some]
    simp only []
    rw [if_neg (by rw [(vb_step c).1]; omega)]
    simp only [List.nil_append, List.foldl_cons, List.foldl_nil, List.length_nil, Nat.add_zero, pure, Option.some.injEq, Prod.mk.injEq, and_true]
    apply BitVec.eq_of_toNat_eq
    rw [vb_val, BitVec.toNat_ofNat, ha]
    omega
  | cons b cs ih =>
    obtain ⟨f, rfl⟩ : ∃ f, fuel = f + 1 := ⟨fuel - 1, by omega⟩
    rw [decodeLoop]
    have hr : rd v pos = some b := by
      have := congrArg (·[0]?) hv
      simpa [rd, List.getElem?_drop] using this
    rw [hr, bind_pure_some]
    simp only []
    rw [if_pos ((vb_step b).1.2 (hcs b (by simp)))]
    rw [ih (pos + 1) f _ (128 * a + b.toNat % 128) ?_ (fun x hx => hcs x (by simp [hx])) (by simp at hf; omega) ?_]
    · simp only [List.cons_append, List.foldl_cons, List.length_cons]
      congr 2; omega
    · rw [← List.drop_drop, hv]; rfl
    · rw [vb_val, ha]; omega

theorem vb_none (v : List (BitVec 8)) (pos fuel : Nat) (val : Word) (h : ∀ b ∈ v.drop pos, 128 ≤ b.toNat) : decodeLoop v fuel pos val = none := by
  induction fuel generalizing pos val with
  | zero => rfl
  | succ f ih =>
    rw [decodeLoop]
    by_cases hp : pos < v.length
    · rw [show rd v pos = some v[pos] from List.getElem?_eq_getElem hp, bind_pure_some]
      simp only []
      have hb : v[pos] ∈ v.drop pos := by
        rw [List.mem_iff_getElem]; exact ⟨0, by simp; omega, by simp⟩
      rw [if_pos ((vb_step _).1.2 (h _ hb))]
      apply ih
      intro b hb
      apply h
      rw [← List.drop_drop] at hb
      exact List.mem_of_mem_drop hb
    · rw [show rd v pos = none from List.getElem?_eq_none (by omega)]; rfl

/-- **C100**, decoding: the bytes up to and including the first one below 128 are read as a number in base 128, modulo `2^64`, and their count is
returned; without such a byte the function reads past the end of the vector.  One of the two is always the case. -/
theorem C100_decode (v : List (BitVec 8)) (off : Nat) :
    (∃ code rest, v.drop off = code ++ rest ∧ OneCode code ∧ decode v off = some (BitVec.ofNat 64 (digits128 code), code.length)) ∨
    ((∀ b ∈ v.drop off, 128 ≤ b.toNat) ∧ decode v off = none) := by
  by_cases h : ∀ b ∈ v.drop off, 128 ≤ b.toNat
  · right
    refine ⟨h, ?_⟩
    unfold decode
    rw [vb_none _ _ _ _ h]; rfl
  · left
    have : ∃ cs c rest, v.drop off = cs ++ c :: rest ∧ (∀ b ∈ cs, 128 ≤ b.toNat) ∧ c.toNat < 128 := by
      generalize v.drop off = u at h
      induction u with
      | nil => simp at h
      | cons b u ih =>
        by_cases hb : 128 ≤ b.toNat
        · obtain ⟨cs, c, rest, e, h1, h2⟩ := ih (fun hu => h (by
            intro x hx
            rcases List.mem_cons.1 hx with rfl | hx
            · exact hb
            · exact hu x hx))
          exact ⟨b :: cs, c, rest, by rw [e]; rfl, by
            intro x hx
            rcases List.mem_cons.1 hx with rfl | hx
            · exact hb
            · exact h1 x hx, h2⟩
        · exact ⟨[], b, u, rfl, by simp, by omega⟩
    obtain ⟨cs, c, rest, e, h1, h2⟩ := this
    refine ⟨cs ++ [c], rest, by rw [e]; simp, ⟨cs, c, rfl, h1, h2⟩, ?_⟩
    unfold decode
    have hl := congrArg List.length e
    simp only [List.length_drop, List.length_append, List.length_cons] at hl
    rw [vb_loop v cs c rest off _ 0 0 e h1 h2 (by omega) rfl, bind_pure_some]
    simp only [List.length_append, List.length_singleton]
    show some (_, _) = some (_, _)
    congr 2; omega

theorem digits128_lt (bs : List (BitVec 8)) : digits128 bs < 128 ^ bs.length := by
  induction bs using List.reverseRecOn with
  | nil => simp [digits128]
  | append_singleton cs c ih =>
    rw [digits128_concat, List.length_append, List.length_singleton, Nat.pow_succ]
    have := Nat.mod_lt c.toNat (show 0 < 128 by decide)
    omega

theorem digits128_inj (a b : List (BitVec 8)) (hl : a.length = b.length) (h : digits128 a = digits128 b) : a.map (·.toNat % 128) = b.map (·.toNat % 128) := by
  induction a using List.reverseRecOn generalizing b with
  | nil => have := List.eq_nil_of_length_eq_zero hl.symm; subst this; rfl
  | append_singleton cs c ih =>
    rcases List.eq_nil_or_concat b with rfl | ⟨ds, d, rfl⟩
    · simp at hl
    · rw [List.concat_eq_append] at *
      rw [digits128_concat, digits128_concat] at h
      have h1 := Nat.mod_lt c.toNat (show 0 < 128 by decide)
      have h2 := Nat.mod_lt d.toNat (show 0 < 128 by decide)
      rw [List.map_append, List.map_append, ih ds (by simpa using hl) (by omega)]
      simp; omega

theorem oneCode_ext (a b : List (BitVec 8)) (ha : OneCode a) (hb : OneCode b) (h : a.map (·.toNat % 128) = b.map (·.toNat % 128)) : a = b := by
  obtain ⟨cs, c, rfl, h1, h2⟩ := ha
  obtain ⟨ds, d, rfl, h3, h4⟩ := hb
  rw [List.map_append, List.map_append] at h
  have h5 := List.append_inj' h rfl
  have hcd : c = d := by
    have := h5.2
    simp only [List.map_cons, List.map_nil, List.cons.injEq, and_true] at this
    apply BitVec.eq_of_toNat_eq; omega
  have hcs : cs = ds := by
    have := h5.1
    clear h h5
    induction cs generalizing ds with
    | nil => cases ds with
      | nil => rfl
      | cons y ds => simp at this
    | cons x cs ih => cases ds with
      | nil => simp at this
      | cons y ds =>
        simp only [List.map_cons, List.cons.injEq] at this
        have hx := h1 x (by simp)
        have hy := h3 y (by simp)
        have : x = y := by apply BitVec.eq_of_toNat_eq; omega
        subst this
        rw [ih (fun z hz => h1 z (by simp [hz])) ds (fun z hz => h3 z (by simp [hz])) (by tauto)]
  rw [hcd, hcs]

theorem digits128_cons (b : BitVec 8) (bs : List (BitVec 8)) : digits128 (b :: bs) = (b.toNat % 128) * 128 ^ bs.length + digits128 bs := by
  induction bs using List.reverseRecOn with
  | nil => simp [digits128]
  | append_singleton cs c ih =>
    rw [← List.cons_append, digits128_concat, ih, digits128_concat, List.length_append, List.length_singleton, Nat.pow_succ]
    ring

theorem chunk_digit (x : Word) (b : Nat) : (chunk x b).toNat % 128 = x.toNat / 128 ^ b % 128 := by
  have h : ∀ (c : BitVec 8) (t : Bool), c.toNat < 128 → (c ||| (if t then (0x80 : BitVec 8) else 0)).toNat % 128 = c.toNat := by decide +kernel
  have e : (((x >>> (b * 7)) &&& 0x7F).setWidth 8 : BitVec 8).toNat = x.toNat / 128 ^ b % 128 := by
    rw [BitVec.toNat_setWidth, BitVec.toNat_and, BitVec.toNat_ushiftRight, Nat.shiftRight_eq_div_pow, Nat.mul_comm b 7, Nat.pow_mul]
    have : (127#64).toNat = 2^7 - 1 := rfl
    rw [show (0x7F : BitVec 64) = 127#64 from rfl, this, Nat.and_two_pow_sub_one_eq_mod]
    have := Nat.mod_lt (x.toNat / 128^b) (show 0 < 128 by decide)
    rw [show (2 : Nat)^7 = 128 from rfl]
    omega
  have := h (((x >>> (b * 7)) &&& 0x7F).setWidth 8) (decide (b ≠ 0)) (by rw [e]; exact Nat.mod_lt _ (by decide))
  unfold chunk
  rw [e] at this
  simpa using this

theorem digits128_chunks (x : Word) (k : Nat) : digits128 (chunks x k) = x.toNat % 128 ^ k := by
  induction k with
  | zero => simp [chunks, digits128, Nat.mod_one]
  | succ b ih =>
    rw [chunks, digits128_cons, ih, chunks_length, chunk_digit, Nat.pow_succ, Nat.mod_mul]
    ring

theorem chunk_high (x : Word) (b : Nat) : 128 ≤ (chunk x b).toNat ↔ b ≠ 0 := by
  rw [← (vb_step _).1]; exact (step_eq x b).2

theorem chunks_oneCode (x : Word) (k : Nat) : OneCode (chunks x (k + 1)) := by
  induction k with
  | zero =>
    refine ⟨[], chunk x 0, rfl, by simp, ?_⟩
    have := (chunk_high x 0).not
    omega
  | succ k ih =>
    obtain ⟨cs, c, e, h1, h2⟩ := ih
    refine ⟨chunk x (k + 1) :: cs, c, by rw [chunks, e]; rfl, ?_, h2⟩
    intro b hb
    rcases List.mem_cons.1 hb with rfl | hb
    · exact (chunk_high x (k + 1)).2 (by omega)
    · exact h1 b hb

/-- **C100**, the codes that `append_vbyte` writes are exactly those whose number is below `2^64` and that have no leading zero digit (the byte
`0x80`).  Other codes are decoded too: with leading `0x80` to the same number as without, and numbers from `2^64` on to the wrong one. -/
theorem C100_canonical (v bs : List (BitVec 8)) (hb : OneCode bs) :
    (∃ x n, append v x = some (v ++ bs, n)) ↔ digits128 bs < 2^64 ∧ bs.head? ≠ some 0x80 := by
  constructor
  · rintro ⟨x, n, h⟩
    rw [append_eq] at h
    simp only [Option.some.injEq, Prod.mk.injEq] at h
    have hbs : bs = code x := (List.append_cancel_left h.1).symm
    obtain ⟨k, hk⟩ : ∃ k, vbyteSize x = k + 1 := ⟨vbyteSize x - 1, by have := (vbyteSize_bounds x).1; omega⟩
    have h3 := C44_size x
    have hd : digits128 bs = x.toNat := by
      rw [hbs, code, digits128_chunks, Nat.mod_eq_of_lt h3.2.1]
    refine ⟨by rw [hd]; exact x.isLt, ?_⟩
    rw [hbs, code, hk, chunks]
    simp only [List.head?_cons, ne_eq, Option.some.injEq]
    intro e
    have h0 := chunk_digit x k
    rw [e] at h0
    have hk0 : k ≠ 0 := by
      intro h00; have := (chunk_high x k).1 (by rw [e]; decide); omega
    have h4 := h3.2.2 (by omega)
    have h5 := h3.2.1
    rw [hk] at h4 h5
    rw [Nat.pow_succ] at h5
    have h6 : x.toNat / 128^k < 128 := Nat.div_lt_of_lt_mul (by omega)
    have h7 : 0 < x.toNat / 128^k := Nat.div_pos (by simpa using h4) (by positivity)
    rw [Nat.mod_eq_of_lt h6, show (128 : BitVec 8).toNat % 128 = 0 from rfl] at h0
    omega
  · rintro ⟨h1, h2⟩
    refine ⟨BitVec.ofNat 64 (digits128 bs), vbyteSize (BitVec.ofNat 64 (digits128 bs)), ?_⟩
    rw [append_eq]
    congr 3
    have hx : (BitVec.ofNat 64 (digits128 bs)).toNat = digits128 bs := by rw [BitVec.toNat_ofNat, Nat.mod_eq_of_lt h1]
    generalize BitVec.ofNat 64 (digits128 bs) = x at hx
    obtain ⟨k, hk⟩ : ∃ k, vbyteSize x = k + 1 := ⟨vbyteSize x - 1, by have := (vbyteSize_bounds x).1; omega⟩
    have h3 := C44_size x
    have hlen : (code x).length = bs.length := by
      rw [code, chunks_length]
      have hlt := digits128_lt bs
      obtain ⟨cs, c, e, g1, g2⟩ := id hb
      have hpos : 1 ≤ bs.length := by rw [e]; simp
      have hge : 1 < bs.length → 128 ^ (bs.length - 1) ≤ digits128 bs := by
        intro hl
        cases cs with
        | nil => rw [e] at hl; simp at hl
        | cons b cs =>
          rw [e, List.cons_append, digits128_cons]
          have hb1 := g1 b (by simp)
          have hb2 : b.toNat ≠ 128 := by
            intro hb'
            apply h2
            rw [e]
            simp only [List.cons_append, List.head?_cons, Option.some.injEq]
            exact BitVec.eq_of_toNat_eq hb'
          have hb3 := b.isLt
          have : 1 ≤ b.toNat % 128 := by omega
          have hm := Nat.mul_le_mul_right (128 ^ (cs ++ [c]).length) this
          rw [Nat.one_mul] at hm
          simp only [List.length_cons, Nat.add_sub_cancel]
          omega
      rcases Nat.lt_trichotomy (vbyteSize x) bs.length with h | h | h
      · have := hge (by omega)
        have h5 := Nat.pow_le_pow_right (show 0 < 128 by decide) (show vbyteSize x ≤ bs.length - 1 by omega)
        omega
      · exact h
      · have := h3.2.2 (by omega)
        have h5 := Nat.pow_le_pow_right (show 0 < 128 by decide) (show bs.length ≤ vbyteSize x - 1 by omega)
        omega
    apply oneCode_ext
    · rw [code, hk]; exact chunks_oneCode x k
    · exact hb
    · apply digits128_inj _ _ hlen
      rw [code, digits128_chunks, Nat.mod_eq_of_lt h3.2.1, hx]

example : OneCode [0x80, 0x82, 0x2C] ∧ digits128 [0x80, 0x82, 0x2C] = 300 ∧ decode [7, 0x80, 0x82, 0x2C, 5] 1 = some (300, 3) := by
  refine ⟨⟨[0x80, 0x82], 0x2C, rfl, ?_, ?_⟩, ?_, ?_⟩ <;> decide +kernel
example : OneCode [0x82, 0x2C] ∧ digits128 [0x82, 0x2C] < 2^64 ∧ ([0x82, 0x2C] : List (BitVec 8)).head? ≠ some 0x80 ∧ append [7] 300 = some ([7, 0x82, 0x2C], 2) := by
  refine ⟨⟨[0x82], 0x2C, rfl, ?_, ?_⟩, ?_, ?_, ?_⟩ <;> decide +kernel
/-- a truncated code is read past its end -/
example : decode [7, 0x82] 1 = none := by decide +kernel
/-- `2^64` is decoded as 0 -/
example : decode [0x82, 0x80, 0x80, 0x80, 0x80, 0x80, 0x80, 0x80, 0x80, 0x00] 0 = some (0, 10) := by decide +kernel

end Succinct
