import Verif.Lemmas.Mappable
import Verif.Lemmas.Vbyte
import Verif.Lemmas.Nibble
import Verif.Lemmas.Lines

/-! # C43-C49: mappable_vector, vbyte, nibble_vector, util -/
namespace Succinct
open Spec

/-! ## C43 -/
section
open Mappable
variable {α : Type}

/-- Any program that uses its vectors within their lifetimes runs without undefined behaviour (in
particular no buffer is freed twice or read after being freed), leaves every vector with the expected
contents, and at every point every buffer not yet freed has exactly one live owner. -/
theorem C43_ownership (cs : List (Cmd α)) (a : Contents α) (hr : Run (fun _ => none) cs a) :
    ∃ s, run init cs = some s ∧
      (∀ i, (s.vecs i).isSome = (a i).isSome) ∧
      (∀ i v xs, s.vecs i = some v → a i = some xs → v.size = xs.length ∧ ∀ k, get s.heap v k = xs[k]?) ∧
      (∀ i v id, s.vecs i = some v → v.deleter = some id → ∃ ys, s.heap[id]? = some (some ys)) ∧
      (∀ id ys, s.heap[id]? = some (some ys) →
        ∃ i, (∃ v, s.vecs i = some v ∧ v.deleter = some id) ∧ ∀ j w, s.vecs j = some w → w.deleter = some id → j = i) := by
  obtain ⟨s, e, hi⟩ := run_inv init_inv hr
  refine ⟨s, e, ?_, ?_, hi.owned, ?_⟩
  · intro i
    cases h : a i with
    | none => rw [hi.dead i h]; rfl
    | some xs => obtain ⟨v, hv, _⟩ := hi.live i xs h; rw [hv]; rfl
  · intro i v xs hv ha
    obtain ⟨v', hv', hc, hs⟩ := hi.live i xs ha
    rw [hv] at hv'; cases hv'
    exact ⟨hs, get_of_contents hc hs⟩
  · intro id ys hy
    obtain ⟨i, v, hv, hd⟩ := hi.noLeak id ys hy
    exact ⟨i, ⟨v, hv, hd⟩, fun j w hw hwd => hi.inj j i w v id hw hv hwd hd⟩

/-- Once every vector has been destroyed every buffer has been freed. -/
theorem C43_no_leak (cs : List (Cmd α)) (a : Contents α) (hr : Run (fun _ => none) cs a) (hd : ∀ i, a i = none) :
    ∃ s, run init cs = some s ∧ ∀ b ∈ s.heap, b = none := by
  obtain ⟨s, e, hi⟩ := run_inv init_inv hr
  refine ⟨s, e, ?_⟩
  intro b hb
  cases b with
  | none => rfl
  | some ys =>
    obtain ⟨id, hid, hx⟩ := List.getElem_of_mem hb
    obtain ⟨i, v, hv, _⟩ := hi.noLeak id ys (by rw [List.getElem?_eq_getElem hid, hx])
    rw [hi.dead i (hd i)] at hv; simp at hv

/-- `assign` of its own range to a vector that owns its elements reads them after they have been freed; it is
defined for a mapped vector, whose elements it copies -/
theorem C43_self_assign (xs : List α) :
    run init [.newRange 0 xs, .assignVec 0 0] = none ∧
    ∃ s v, run init [.new 0, .map 0 xs, .assignVec 0 0] = some s ∧ s.vecs 0 = some v ∧ v.size = xs.length ∧
      v.deleter.isSome ∧ ∀ k, get s.heap v k = xs[k]? := by
  refine ⟨rfl, ?_⟩
  have e : run init [.new 0, .map 0 xs, .assignVec 0 0] = some (⟨[some xs], setAt (setAt (setAt (fun _ => none) 0 (some Vec.empty)) 0
      (some ⟨.image xs, xs.length, none⟩)) 0 (some ⟨.heap 0, xs.length, some 0⟩)⟩ : State α) := by
    simp [run, step, init, setAt, mapImage, clear, swap, Vec.empty, dtor, contents, ctorRange, alloc]
  refine ⟨_, ⟨.heap 0, xs.length, some 0⟩, e, rfl, rfl, rfl, fun k => ?_⟩
  simp only [Mappable.get, List.getElem?_cons_zero]
  split
  · rfl
  · rw [List.getElem?_eq_none (by omega)]

/-- a program with a steal into a mapped vector, a swap and an assignment -/
theorem C43_example : Run (fun _ => none)
    [.new 0, .map 0 [1, 2], .steal 0 [3, 4, 5], .newRange 1 [6], .swap 0 1, .assignVec 1 0, .destroy 0, .destroy 1]
    ((((((((Contents.set (fun _ => none) 0 (some [])).set 0 (some [1, 2])).set 0 (some [3, 4, 5])).set 1 (some [6])).set 0 (some [6])).set 1
      (some [3, 4, 5])).set 1 (some [6])).set 0 none |>.set 1 none) := by
  refine .cons (.new 0 rfl) (.cons (.map 0 _ [] rfl) (.cons (.steal 0 _ [1, 2] rfl) (.cons (.newRange 1 _ rfl) (.cons (.swap 0 1 [3, 4, 5] [6] rfl rfl)
    (.cons (.assignVec 1 0 [6] [3, 4, 5] (by decide) rfl rfl) (.cons (.destroy 0 [6] rfl) (.cons (.destroy 1 [6] rfl) (.nil _))))))))
example : ∀ i, ((((((((Contents.set (α := Nat) (fun _ => none) 0 (some [])).set 0 (some [1, 2])).set 0 (some [3, 4, 5])).set 1 (some [6])).set 0 (some [6])).set 1
      (some [3, 4, 5])).set 1 (some [6])).set 0 none |>.set 1 none) i = none := by
  intro i; simp only [Contents.set]; split
  · rfl
  · split
    · rfl
    · rename_i h1 h0; simp [h1, h0]

end

/-! ## C44 -/
section
open Vbyte

/-- The number of bytes is the number of base-128 digits. -/
theorem C44_size (x : Word) : 1 ≤ vbyteSize x ∧ x.toNat < 128^(vbyteSize x) ∧ (1 < vbyteSize x → 128^(vbyteSize x - 1) ≤ x.toNat) := by
  obtain ⟨h1, _, h3, h4⟩ := vbyteSize_bounds x
  have e : ∀ k, (128 : Nat)^k = 2^(7*k) := fun k => by rw [Nat.pow_mul]
  refine ⟨h1, by rw [e]; exact h3, fun h => ?_⟩
  rw [e]
  rcases h4 with h4 | h4
  · omega
  · exact h4

/-- `append_vbyte` appends `vbyte_size(x)` bytes and returns that number; whatever follows, `decode_vbyte`
at the old end gives back `x` and the number of bytes. -/
theorem C44_roundtrip (v : List (BitVec 8)) (x : Word) : ∃ code, append v x = some (v ++ code, vbyteSize x) ∧ code.length = vbyteSize x ∧
    ∀ post, decode (v ++ code ++ post) v.length = some (x, vbyteSize x) :=
  ⟨code x, append_eq v x, chunks_length _ _, fun post => decode_eq v post x⟩

/-- appending a sequence of values -/
def appendAll : List Word → List (BitVec 8) → Option (List (BitVec 8))
  | [], v => some v
  | x :: xs, v => do
    let (v, _) ← append v x
    appendAll xs v

/-- decoding `n` values in order from `pos` on -/
def decodeAll (v : List (BitVec 8)) : Nat → Nat → Option (List Word × Nat)
  | 0, pos => some ([], pos)
  | n + 1, pos => do
    let (x, k) ← decode v pos
    let (xs, e) ← decodeAll v n (pos + k)
    pure (x :: xs, e)

/-- Any sequence of values appended is decoded in order, ending where the codes end. -/
theorem C44_sequence (xs : List Word) (v post : List (BitVec 8)) :
    ∃ w, appendAll xs v = some w ∧ v <+: w ∧ decodeAll (w ++ post) xs.length v.length = some (xs, w.length) := by
  induction xs generalizing v with
  | nil => exact ⟨v, rfl, List.prefix_refl v, rfl⟩
  | cons x xs ih =>
    obtain ⟨w, h1, ⟨t, ht⟩, h3⟩ := ih (v ++ code x)
    refine ⟨w, ?_, ⟨code x ++ t, by rw [← ht]; simp⟩, ?_⟩
    · rw [appendAll, append_eq, RSBitVector.bind_pure_some]; exact h1
    · have hd := decode_eq v (t ++ post) x
      have e : v ++ code x ++ (t ++ post) = w ++ post := by rw [← ht]; simp
      rw [e] at hd
      rw [List.length_cons, decodeAll, hd, RSBitVector.bind_pure_some]
      have hl : (v ++ code x).length = v.length + vbyteSize x := by rw [List.length_append, code, chunks_length]
      rw [hl] at h3
      simp only []
      rw [h3, RSBitVector.bind_pure_some]; rfl

example : append [7] 300 = some ([7, 0x82, 0x2C], 2) := by decide +kernel
example : vbyteSize (BitVec.allOnes 64) = 10 ∧ vbyteSize 0 = 1 ∧ vbyteSize 127 = 1 ∧ vbyteSize 128 = 2 := by decide +kernel
example : decode [7, 0x82, 0x2C, 0xFF] 1 = some (300, 2) := by decide +kernel

end

/-! ## C45 -/

theorem C45_nibble_vector (l : List Nat) (hl : ∀ a ∈ l, a < 16) :
    ∃ v, NibbleVector.build l = some v ∧ v.size = l.length ∧
      (∀ (i : Nat) (h : i < l.length), ∃ b, NibbleVector.get v i = some b ∧ b.toNat = l[i]) ∧ ∀ i, l.length ≤ i → NibbleVector.get v i = none := by
  obtain ⟨v, h1, h2, _, _⟩ := NibbleVector.build_spec l hl
  refine ⟨v, h1, h2, fun i h => ⟨_, NibbleVector.get_spec l hl v h1 i h, ?_⟩, fun i h => ?_⟩
  · have := hl _ (List.getElem_mem h)
    rw [BitVec.toNat_ofNat]; omega
  · unfold NibbleVector.get assertP
    rw [if_neg (by omega)]; rfl

example : NibbleVector.build [3, 15, 9] = some ⟨3, [0xF3, 0x09]⟩ := by decide +kernel
example : NibbleVector.build [3, 16, 9] = none := by decide +kernel
example : NibbleVector.get ⟨3, [0xF3, 0x09]⟩ 1 = some 15 := by decide +kernel

/-! ## C46 -/
section
open Util

theorem Util.i64_eq {x : Int} (h1 : -2^63 ≤ x) (h2 : x < 2^63) : i64 x = some x := if_pos ⟨h1, h2⟩
theorem Util.toI64_eq {n : Nat} (h : n < 2^63) : toI64 n = n := Int.bmod_eq_of_le (by omega) (by omega)

/-- Where `int2nat` does not overflow, `nat2int` undoes it. -/
theorem C46_int2nat_partial (x : Int) (h1 : -2^62 < x) (h2 : x < 2^62) : ∃ n, int2nat x = some n ∧ n < 2^64 ∧ nat2int n = some x := by
  by_cases hx : x < 0
  · have e : toU64 (-2 * x - 1) = (-2 * x - 1).toNat := by unfold toU64; rw [Int.emod_eq_of_lt (by omega) (by omega)]
    refine ⟨(-2 * x - 1).toNat, ?_, by omega, ?_⟩
    · unfold int2nat
      rw [if_pos hx, i64_eq (by omega) (by omega), RSBitVector.bind_pure_some, i64_eq (by omega) (by omega), RSBitVector.bind_pure_some, e]; rfl
    · unfold nat2int
      rw [if_pos (by omega), Nat.mod_eq_of_lt (by omega), toI64_eq (by omega), i64_eq (by omega) (by omega)]
      congr 1; omega
  · have e : toU64 (2 * x) = (2 * x).toNat := by unfold toU64; rw [Int.emod_eq_of_lt (by omega) (by omega)]
    refine ⟨(2 * x).toNat, ?_, by omega, ?_⟩
    · unfold int2nat
      rw [if_neg hx, i64_eq (by omega) (by omega), RSBitVector.bind_pure_some, e]; rfl
    · unfold nat2int
      rw [if_neg (by omega), toI64_eq (by omega)]
      congr 1; omega

/-- For every other `int64_t` the multiplication overflows: undefined behaviour. -/
theorem C46_int2nat_undefined (x : Int) (h : x ≤ -2^62 ∨ 2^62 ≤ x) : int2nat x = none := by
  unfold int2nat i64
  by_cases hx : x < 0
  · rw [if_pos hx, if_neg (by omega)]; rfl
  · rw [if_neg hx, if_neg (by omega)]; rfl

/-- `nat2int` numbers the integers 0, -1, 1, -2, 2, ...; this fails only at the last argument. -/
theorem C46_nat2int_value (n : Nat) (h : n < 2^64 - 1) : nat2int n = some (if n % 2 = 0 then (n : Int) / 2 else -((n + 1) / 2)) := by
  unfold nat2int
  by_cases hn : n % 2 = 0
  · rw [if_neg (by omega), if_pos hn, toI64_eq (by omega)]; rfl
  · rw [if_pos (by omega), if_neg hn, Nat.mod_eq_of_lt (by omega), toI64_eq (by omega), i64_eq (by omega) (by omega)]
    congr 1

/-- `int2nat` undoes `nat2int` below `2^63 - 1`. -/
theorem C46_nat2int_partial (n : Nat) (h : n < 2^63 - 1) : ∃ x, nat2int n = some x ∧ int2nat x = some n := by
  refine ⟨_, C46_nat2int_value n (by omega), ?_⟩
  unfold int2nat
  by_cases hn : n % 2 = 0
  · rw [if_pos hn, if_neg (by omega), i64_eq (by omega) (by omega), RSBitVector.bind_pure_some]
    unfold toU64
    rw [Int.emod_eq_of_lt (by omega) (by omega)]
    simp only [pure, Option.some.injEq]; omega
  · rw [if_neg hn, if_pos (by omega), i64_eq (by omega) (by omega), RSBitVector.bind_pure_some, i64_eq (by omega) (by omega), RSBitVector.bind_pure_some]
    unfold toU64
    rw [Int.emod_eq_of_lt (by omega) (by omega)]
    simp only [pure, Option.some.injEq]; omega

/-- The claim is false: an `int64_t` and a `uint64_t` that are not recovered, and a collision. -/
theorem C46_false : int2nat (2^62) = none ∧ nat2int (2^64 - 1) = nat2int 0 ∧ (nat2int (2^63)).bind int2nat = none := by decide +kernel

example : int2nat (-3) = some 5 ∧ nat2int 5 = some (-3) ∧ int2nat 3 = some 6 ∧ nat2int 6 = some 3 := by decide +kernel

/-! ## C47 -/

/-- A line terminated by a newline, of any length, is returned unmodified (or trimmed) and consumed. -/
theorem C47_line_partial (x rest : List Byte) (h10 : 10 ∉ x) (h0 : 0 ∉ x) :
    fastGetline (x ++ [10] ++ rest) false = some ((true, x ++ [10]), rest) ∧
    ∃ t, IsTrimmed (x ++ [10]) t ∧ fastGetline (x ++ [10] ++ rest) true = some ((true, t), rest) := by
  have e : x ++ [10] ++ rest = x ++ 10 :: rest := by simp
  rw [e]
  exact ⟨fastGetline_line x rest h10 h0 false, _, trim_spec _, fastGetline_line x rest h10 h0 true⟩

/-- At the end of the file `false` is returned. -/
theorem C47_eof (trim : Bool) : fastGetline [] trim = some ((false, []), []) := fastGetline_eof trim

/-- If the file is empty or ends with a newline (and has no NUL byte), repeated calls return exactly its
lines, each once, and then `false`. -/
theorem C47_lines_partial (s : List Byte) (ls : List (List Byte)) (h : Lines s ls) (ht : Terminated s) (h0 : 0 ∉ s) :
    getlines false (ls.length + 1) s = some ls ∧
    ∃ ts, getlines true (ls.length + 1) s = some ts ∧ ts.length = ls.length ∧ ∀ p ∈ ls.zip ts, IsTrimmed p.1 p.2 := by
  refine ⟨?_, _, getlines_terminated h ht h0 true _ (by omega), by simp, ?_⟩
  · rw [getlines_terminated h ht h0 false _ (by omega)]
    have : stored false = id := rfl
    rw [this, List.map_id]
  · intro p hp
    rw [List.zip_map_right, List.mem_map] at hp
    obtain ⟨⟨q1, q2⟩, hq, rfl⟩ := hp
    have : q1 = q2 := by
      have := List.mem_iff_getElem.1 hq
      obtain ⟨i, hi, he⟩ := this
      rw [List.getElem_zip] at he
      cases he; rfl
    subst this
    exact trim_spec _

/-- A last line without a newline is always returned with its last chunk duplicated: the statement fails
for every such file. -/
theorem C47_unterminated_false (x : List Byte) (hne : x ≠ []) (h10 : 10 ∉ x) (h0 : 0 ∉ x) :
    ∃ t, t ≠ [] ∧ t <:+ x ∧ t.length ≤ 65535 ∧ fastGetline x false = some ((true, x ++ t), []) := by
  have hpos := List.length_pos_iff.2 hne
  refine ⟨lastChunk x, ?_, List.drop_suffix _ _, ?_, fastGetline_last x hne h10 h0 false⟩
  · intro e
    have := congrArg List.length e
    unfold lastChunk at this
    rw [List.length_drop] at this
    simp at this
    omega
  · unfold lastChunk
    rw [List.length_drop]
    omega

/-- The whole file in that case: all other lines are right. -/
theorem C47_unterminated_rest (s y : List Byte) (ls : List (List Byte)) (h : Lines s ls) (ht : Terminated s) (h0 : 0 ∉ s)
    (hy : y ≠ []) (hy10 : 10 ∉ y) (hy0 : 0 ∉ y) : ∃ t, t ≠ [] ∧ getlines false (ls.length + 2) (s ++ y) = some (ls ++ [y ++ t]) := by
  obtain ⟨t, ht1, _, _, ht4⟩ := C47_unterminated_false y hy hy10 hy0
  refine ⟨t, ht1, ?_⟩
  rw [getlines_unterminated h ht h0 hy hy10 hy0 false _ (by omega)]
  rw [fastGetline_last y hy hy10 hy0] at ht4
  have : stored false = id := rfl
  rw [this] at ht4 ⊢
  rw [List.map_id]
  simp only [Option.some.injEq, Prod.mk.injEq, true_and, and_true] at ht4
  rw [ht4]

/-- the file "ab" is read as "abab" -/
theorem C47_false : fastGetline [97, 98] false = some ((true, [97, 98, 97, 98]), []) := by decide +kernel

/-- NUL bytes: a line beginning with one is undefined behaviour, one inside a line loses the rest of it
and joins the next line -/
theorem C47_nul_false : fastGetline [0, 10] false = none ∧
    fastGetline [97, 0, 98, 10, 99, 10] false = some ((true, [97, 99, 10]), []) := by decide +kernel

/-- every text has exactly one decomposition into lines -/
theorem C47_lines_exist (s : List Byte) : ∃ ls, Lines s ls ∧ ∀ ls', Lines s ls' → ls' = ls := by
  obtain ⟨ls, h⟩ := Lines.exists s
  exact ⟨ls, h, fun _ h' => Lines.unique h' h⟩

/-- "a\r\n\nbc\n" -/
theorem C47_example : Lines ([97, 13, 10, 10, 98, 99, 10] : List Byte) [[97, 13, 10], [10], [98, 99, 10]] :=
  .cons [97, 13] (by decide) (.cons [] (by decide) (.cons [98, 99] (by decide) .nil))
example : Terminated ([97, 13, 10, 10, 98, 99, 10] : List Byte) := Or.inr rfl
example : getlines true 4 [97, 13, 10, 10, 98, 99, 10] = some [[97], [], [98, 99]] := by decide +kernel

/-! ## C48 -/

/-- Iterating over any buffer yields its lines, each without the newline and one carriage return. -/
theorem C48_buffer_lines (buf : List Byte) (ls : List (List Byte)) (h : Lines buf ls) :
    ∃ ts, BufIter.lines buf = some ts ∧ ts.length = ls.length ∧ ∀ p ∈ ls.zip ts, IsChomped p.1 p.2 := by
  refine ⟨_, bufLines_eq h, by simp, ?_⟩
  intro p hp
  rw [List.zip_map_right, List.mem_map] at hp
  obtain ⟨⟨q1, q2⟩, hq, rfl⟩ := hp
  obtain ⟨i, hi, he⟩ := List.mem_iff_getElem.1 hq
  rw [List.getElem_zip] at he
  cases he
  exact isChomped_of_lines h _ (List.getElem_mem _)

/-- what a line is stripped to is unique -/
theorem C48_chomped_unique (s t u : List Byte) (ht : IsChomped s t) (hu : IsChomped s u) : t = u := by
  obtain ⟨a, ha, ht⟩ := ht
  obtain ⟨b, hb, hu⟩ := hu
  have hab : a = b := by
    rcases ha with ha | ⟨ha, ha'⟩ <;> rcases hb with hb | ⟨hb, hb'⟩
    · rw [ha] at hb; exact List.append_cancel_right hb
    · rw [← hb, ha] at hb'; simp at hb'
    · rw [← ha, hb] at ha'; simp at ha'
    · rw [← ha, hb]
  subst hab
  rcases ht with ht | ⟨ht, ht'⟩ <;> rcases hu with hu | ⟨hu, hu'⟩
  · rw [ht] at hu; exact List.append_cancel_right hu
  · rw [← hu, ht] at hu'; simp at hu'
  · rw [← ht, hu] at ht'; simp at ht'
  · rw [← ht, hu]

example : BufIter.lines [97, 13, 10, 10, 98, 99] = some [[97], [], [98, 99]] := by decide +kernel
example : BufIter.lines [] = some [] := by decide +kernel
example : BufIter.lines [13, 13, 10] = some [[13]] := by decide +kernel

/-! ## C49 -/

/-- Iterating over `lines(f)` yields an empty string first, and then what repeated `fast_getline` calls
return. -/
theorem C49_line_iterator_partial (s : List Byte) (trim : Bool) (fuel : Nat) (r : List (List Byte)) (h : getlines trim fuel s = some r) :
    LineIter.collect (fuel + 1) (LineIter.new s trim) = some ([] :: r) := collect_eq trim fuel s [] r h

/-- So the claim fails for every file: there is always one string too many. -/
theorem C49_false (s : List Byte) (trim : Bool) (fuel : Nat) (r : List (List Byte)) (h : getlines trim fuel s = some r) :
    LineIter.collect (fuel + 1) (LineIter.new s trim) ≠ some r := by
  rw [collect_eq trim fuel s [] r h |> fun e => (show LineIter.collect (fuel+1) (LineIter.new s trim) = some ([] :: r) from e)]
  intro e
  have := congrArg (Option.map List.length) e
  simp at this

example : getlines false 3 [97, 10, 98, 10] = some [[97, 10], [98, 10]] := by decide +kernel
example : LineIter.collect 4 (LineIter.new [97, 10, 98, 10] false) = some [[], [97, 10], [98, 10]] := by decide +kernel

end
end Succinct
