import Verif.Lemmas.EFList
import Verif.Props.BitVector

/-! # C20-C27: `elias_fano`, `elias_fano_list`, `elias_fano_compressed_list`

Hypotheses of C20-C24 on the constructor arguments `n` (universe) and `m` (capacity):

* `m ≤ 2^62`: the builder allocates more than `m` bits;
* `m = 0 → n + 2 < 2^64`: otherwise the size of the high part wraps around; `C21_wrap_false` shows what
  happens then.

`ov` is the unspecified result of over-wide shifts; the theorems hold for every `ov`. -/
namespace Succinct
open Spec

/-- `xs` may be stored in an `elias_fano` of universe `n` and capacity `m` -/
structure Storable (n : Word) (m : Nat) (xs : List Word) : Prop where
  sorted : xs.Pairwise (· ≤ ·)
  le : ∀ x ∈ xs, x ≤ n
  count : xs.length ≤ m
  cap : m ≤ 2^62
  zero : m = 0 → n.toNat + 2 < 2^64

theorem EliasFano.ofSeq_good (n : Word) (m : Nat) (xs : List Word) (h : Storable n m xs) (wr : Bool) :
    ∃ ef hb, EliasFano.ofSeq n m xs wr = some ef ∧ EliasFano.Good ef n xs hb ∧ (wr = true → EliasFano.Rank ef hb) := by
  obtain ⟨b0, l, hb0, e0, g0⟩ := EFBuilder.new_good n m ⟨h.cap, h.zero⟩
  obtain ⟨b1, hb1, e1, g1⟩ := EFBuilder.fold_good g0 xs (by simpa using h.sorted) h.le (by simpa using h.count)
  rw [List.nil_append] at g1
  obtain ⟨ef, e2, g2, r2⟩ := EliasFano.build_good g1 wr
  refine ⟨ef, hb1, ?_, g2, r2⟩
  unfold EliasFano.ofSeq
  rw [e0, bind_pure_some, e1, bind_pure_some, e2]

/-- **C20.** The stored sequence is returned by `select`, whether or not the rank index is built; indices
beyond the end violate an assertion. -/
theorem C20_select (n : Word) (m : Nat) (xs : List Word) (h : Storable n m xs) (wr : Bool) :
    ∃ ef, EliasFano.ofSeq n m xs wr = some ef ∧ ef.size = n ∧ ef.numOnes = xs.length ∧
      ∀ ov k, ef.select ov k = xs[k]? := by
  obtain ⟨ef, hb, e, g, _⟩ := EliasFano.ofSeq_good n m xs h wr
  refine ⟨ef, e, g.size, g.ones, ?_⟩
  intro ov k
  by_cases hk : k < xs.length
  · rw [EliasFano.select_eq ov g k hk, List.getElem?_eq_getElem hk]
  · rw [EliasFano.select_none ov g k (by omega), List.getElem?_eq_none (by omega)]

/-- `push_back` rejects, by its assertions, everything else: a value below the last one, a value above the
universe. -/
theorem C20_push_rejects (b : EFBuilder) (x : Word) (h : x < b.last ∨ b.n < x ∨ b.m ≤ b.pos) :
    b.pushBack x = none := by
  unfold EFBuilder.pushBack
  by_cases ha : b.last ≤ x ∧ x ≤ b.n
  · have hb : b.m ≤ b.pos := by
      rcases h with h | h | h
      · have := BitVec.lt_def.1 h; have := BitVec.le_def.1 ha.1; omega
      · have := BitVec.lt_def.1 h; have := BitVec.le_def.1 ha.2; omega
      · exact h
    have : assertP (b.pos + 1 ≤ b.m) = none := by unfold assertP; rw [if_neg (by omega)]
    simp only [this]
    simp
  · have : assertP (b.last ≤ x ∧ x ≤ b.n) = none := by unfold assertP; rw [if_neg ha]
    rw [this]; rfl

/-- 6 values with repetitions, the universe itself among them; two low bits per value -/
def exampleSeq : List Word := [0, 3, 3, 17, 29, 30]

theorem exampleSeq_storable : Storable 30 6 exampleSeq :=
  ⟨by decide +kernel, fun x hx => of_decide_eq_true (List.all_eq_true.1 (by decide +kernel : exampleSeq.all (fun x => decide (x ≤ 30)) = true) x hx),
    by decide, by decide +kernel, fun h => absurd h (by decide)⟩

example : (EliasFano.ofSeq 30 6 exampleSeq true).map (fun ef => (ef.l, ef.size, ef.numOnes)) = some (2, 30, 6) := by decide +kernel

/-- **C21.** `rank(pos)` counts the stored values below `pos`, `rank(size())` counts them all, and
`operator[]` tells membership; beyond the universe both violate an assertion. -/
theorem C21_rank_access (n : Word) (m : Nat) (xs : List Word) (h : Storable n m xs) :
    ∃ ef, EliasFano.ofSeq n m xs true = some ef ∧ ∀ ov,
      (∀ pos, pos < n → ef.rank ov pos = some (xs.countP (· < pos))) ∧
      ef.rank ov n = some xs.length ∧
      (∀ pos, pos < n → ef.access ov pos = some (decide (pos ∈ xs))) ∧
      (∀ pos, n < pos → ef.rank ov pos = none) ∧ (∀ pos, n ≤ pos → ef.access ov pos = none) := by
  obtain ⟨ef, hb, e, g, r⟩ := EliasFano.ofSeq_good n m xs h true
  refine ⟨ef, e, fun ov => ⟨fun pos hp => EliasFano.rank_countP ov g (r rfl) pos hp, EliasFano.rank_size ov g (r rfl),
    fun pos hp => EliasFano.access_eq ov g (r rfl) pos hp, ?_, ?_⟩⟩
  · intro pos hp
    have := BitVec.lt_def.1 hp
    unfold EliasFano.rank assertP
    rw [if_neg (by rw [g.size, BitVec.le_def]; omega)]; rfl
  · intro pos hp
    have := BitVec.le_def.1 hp
    unfold EliasFano.access assertP
    rw [if_neg (by rw [g.size, BitVec.lt_def]; omega)]; rfl

example : (EliasFano.ofSeq 30 6 exampleSeq true).bind (fun ef => ef.rank (fun _ _ => 0) 17) = some 3 ∧
    exampleSeq.countP (· < 17) = 3 := by decide +kernel

/-- Without `m = 0 → n + 2 < 2^64` the claim fails: for an empty `elias_fano` over a universe of
`2^64 - 1` the size of the high part wraps to 1 and `rank(1)`, which should be 0, violates an assertion. -/
theorem C21_wrap_false :
    (EliasFano.ofSeq (BitVec.allOnes 64) 0 [] true).isSome = true ∧
    (EliasFano.ofSeq (BitVec.allOnes 64) 0 [] true).bind (fun ef => ef.rank (fun _ _ => 0) 1) = none := by
  decide +kernel

/-- **C22.** `predecessor1` and `successor1`, for values below the universe. -/
theorem C22_pred_succ (n : Word) (m : Nat) (xs : List Word) (h : Storable n m xs) (hlt : ∀ x ∈ xs, x < n) :
    ∃ ef, EliasFano.ofSeq n m xs true = some ef ∧ ∀ ov pos, pos < n →
      ((∃ x ∈ xs, x ≤ pos) → ∃ y, ef.predecessor1 ov pos = some y ∧ y ∈ xs ∧ y ≤ pos ∧ ∀ x ∈ xs, x ≤ pos → x ≤ y) ∧
      ((∃ x ∈ xs, pos ≤ x) → ∃ y, ef.successor1 ov pos = some y ∧ y ∈ xs ∧ pos ≤ y ∧ ∀ x ∈ xs, pos ≤ x → y ≤ x) := by
  obtain ⟨ef, hb, e, g, r⟩ := EliasFano.ofSeq_good n m xs h true
  exact ⟨ef, e, fun ov pos hp => ⟨EliasFano.predecessor1_eq ov g (r rfl) hlt pos hp, EliasFano.successor1_eq ov g (r rfl) pos hp⟩⟩

example : (EliasFano.ofSeq 31 6 exampleSeq true).bind (fun ef => ef.predecessor1 (fun _ _ => 0) 28) = some 17 ∧
    (EliasFano.ofSeq 31 6 exampleSeq true).bind (fun ef => ef.successor1 (fun _ _ => 0) 4) = some 17 := by decide +kernel

/-- The restriction to values below the universe is needed: with the value `n` stored,
`predecessor1(n - 1)` returns `n`. -/
theorem C22_universe_false :
    (EliasFano.ofSeq 30 6 exampleSeq true).bind (fun ef => ef.predecessor1 (fun _ _ => 0) 29) = some 30 := by decide +kernel

/-- **C23.** `delta` is the difference of consecutive values and `select_range` a pair of them. -/
theorem C23_delta_range (n : Word) (m : Nat) (xs : List Word) (h : Storable n m xs) (wr : Bool) :
    ∃ ef, EliasFano.ofSeq n m xs wr = some ef ∧ ∀ ov,
      (∀ x, xs[0]? = some x → ef.delta ov 0 = some x) ∧
      (∀ k x y, xs[k]? = some x → xs[k+1]? = some y →
        ef.delta ov (k+1) = some (y - x) ∧ (y - x).toNat = y.toNat - x.toNat ∧ ef.selectRange ov k = some (x, y)) := by
  obtain ⟨ef, hb, e, g, r⟩ := EliasFano.ofSeq_good n m xs h wr
  refine ⟨ef, e, fun ov => ⟨?_, ?_⟩⟩
  · intro x hx
    obtain ⟨h0, rfl⟩ := List.getElem?_eq_some_iff.1 hx
    exact EliasFano.delta_zero ov g h0
  · intro k x y hx hy
    obtain ⟨h0, rfl⟩ := List.getElem?_eq_some_iff.1 hx
    obtain ⟨h1, rfl⟩ := List.getElem?_eq_some_iff.1 hy
    refine ⟨EliasFano.delta_succ ov g k h1, ?_, EliasFano.selectRange_eq ov g k h1⟩
    have hle := EliasFano.sorted_le g k (k+1) (by omega) h1
    rw [BitVec.toNat_sub]
    have := xs[k].isLt
    have := xs[k+1].isLt
    omega

example : (EliasFano.ofSeq 30 6 exampleSeq false).bind (fun ef => ef.delta (fun _ _ => 0) 3) = some 14 := by decide +kernel

/-- **C24.** A `select_enumerator` started at any index returns the values from there on. -/
theorem C24_select_enumerator (n : Word) (m : Nat) (xs : List Word) (h : Storable n m xs) (wr : Bool) :
    ∃ ef, EliasFano.ofSeq n m xs wr = some ef ∧ ∀ i k, i < xs.length → i + k ≤ xs.length →
      ∃ e, EliasFano.SelEnum.new ef i = some e ∧ EliasFano.SelEnum.run ef k e = some ((xs.drop i).take k) := by
  obtain ⟨ef, hb, e, g, r⟩ := EliasFano.ofSeq_good n m xs h wr
  refine ⟨ef, e, fun i k hi hk => ?_⟩
  obtain ⟨se, e1, g1⟩ := EliasFano.SelEnum.new_ok g i hi
  exact ⟨se, e1, EliasFano.SelEnum.run_ok g k i hk se g1⟩

example : (EliasFano.ofSeq 30 6 exampleSeq false).bind (fun ef => (EliasFano.SelEnum.new ef 2).bind (EliasFano.SelEnum.run ef 4)) =
    some [3, 17, 29, 30] := by decide +kernel

/-- **C25.** An `elias_fano` built from a bitmap, given as any builder history, is that bitmap. -/
theorem C25_bitmap (p : Prog) (l : List Bool) (hp : p.spec = some l) (hr : p.ReserveAligned) (hl : l.length < 2^62) :
    ∃ ef, (Builder.run p).bind (fun b => EliasFano.ofBitmap b true) = some ef ∧
      ef.size.toNat = l.length ∧ ef.numOnes = l.count true ∧ ∀ ov,
      (∀ i, i < l.length → ef.access ov (BitVec.ofNat 64 i) = l[i]?) ∧
      (∀ i, i ≤ l.length → ef.rank ov (BitVec.ofNat 64 i) = some (rank1 l i)) ∧
      (∀ k, k < l.count true → ∃ x, ef.select ov k = some x ∧ IsSelect1 l k x.toNat) ∧
      (∀ i, i < l.length → true ∈ l.take (i+1) → ∃ x, ef.predecessor1 ov (BitVec.ofNat 64 i) = some x ∧ IsPred true l i x.toNat) ∧
      (∀ i, i < l.length → true ∈ l.drop i → ∃ x, ef.successor1 ov (BitVec.ofNat 64 i) = some x ∧ IsSucc true l i x.toNat) := by
  obtain ⟨b, eb, ib⟩ := Builder.run_inv p l hp hr
  obtain ⟨ef, hb, e, g, r⟩ := EliasFano.ofBitmap_good b l ib hl true
  replace r := r rfl
  have hn : ∀ i, i ≤ l.length → (BitVec.ofNat 64 i).toNat = i := by
    intro i hi; rw [BitVec.toNat_ofNat, Nat.mod_eq_of_lt (by omega)]
  have hmem : ∀ i, i < l.length → (BitVec.ofNat 64 i ∈ EliasFano.onesW l ↔ l[i]? = some true) := by
    intro i hi
    rw [← bitFn_eq_true]
    constructor
    · intro hm
      obtain ⟨k, hk, ek⟩ := List.getElem_of_mem hm
      have := EliasFano.onesW_get l k hk (by omega)
      rw [ek, hn i (by omega)] at this
      exact this.2.1
    · intro hf
      unfold EliasFano.onesW
      apply List.mem_map.2
      exact ⟨i, List.mem_of_getElem? (onesIn_getElem? hi hf), rfl⟩
  have hmem' : ∀ x, x ∈ EliasFano.onesW l → x.toNat < l.length ∧ l[x.toNat]? = some true := by
    intro x hx
    obtain ⟨k, hk, rfl⟩ := List.getElem_of_mem hx
    have := EliasFano.onesW_get l k hk (by omega)
    exact ⟨this.1, (bitFn_eq_true _ _).1 this.2.1⟩
  have hlt : ∀ i, i < l.length → BitVec.ofNat 64 i < BitVec.ofNat 64 l.length := by
    intro i hi; rw [BitVec.lt_def, hn i (by omega), hn _ (Nat.le_refl _)]; exact hi
  have hxlt : ∀ x ∈ EliasFano.onesW l, x < BitVec.ofNat 64 l.length := by
    intro x hx; rw [BitVec.lt_def, hn _ (Nat.le_refl _)]; exact (hmem' x hx).1
  refine ⟨ef, by rw [eb]; exact e, by rw [g.size]; exact hn _ (Nat.le_refl _), by rw [← EliasFano.onesW_length]; exact g.ones,
    fun ov => ⟨?_, ?_, ?_, ?_, ?_⟩⟩
  · intro i hi
    have hm := hmem i hi
    rw [List.getElem?_eq_getElem hi] at hm
    rw [EliasFano.access_eq ov g r _ (hlt i hi), List.getElem?_eq_getElem hi]
    congr 1
    rw [Bool.eq_iff_iff, decide_eq_true_iff, hm, Option.some.injEq]
  · intro i hi
    rw [rank1_eq_cnt]
    rcases Nat.eq_or_lt_of_le hi with rfl | hi'
    · rw [EliasFano.rank_size ov g r, EliasFano.onesW_length, count_eq_cnt]
    · obtain ⟨q, q1, q2, q3, q4⟩ := EliasFano.rank_eq ov g r _ (hlt i hi')
      rw [hn i hi] at q3 q4
      rw [q1]; congr 1
      rw [EliasFano.onesW_length, count_eq_cnt] at q2
      rcases Nat.lt_trichotomy q (cnt (bitFn l) i) with a | a | a
      · have hm := cnt_mono (bitFn l) hi
        have hq : q < (EliasFano.onesW l).length := by rw [EliasFano.onesW_length, count_eq_cnt]; omega
        have h1 := q4 q hq (Nat.le_refl _)
        have h2 := EliasFano.onesW_get l q hq (by omega)
        have := cnt_mono (bitFn l) h1
        omega
      · exact a
      · have hq : cnt (bitFn l) i < (EliasFano.onesW l).length := by rw [EliasFano.onesW_length, count_eq_cnt]; omega
        have h1 := q3 _ hq a
        have h2 := EliasFano.onesW_get l _ hq (by omega)
        have := cnt_lt_of_true h1 h2.2.1
        omega
  · intro k hk
    have hk' : k < (EliasFano.onesW l).length := by rw [EliasFano.onesW_length]; exact hk
    have h2 := EliasFano.onesW_get l k hk' (by omega)
    exact ⟨_, EliasFano.select_eq ov g k hk', (isSelect1_iff _ _ _).2 h2.2⟩
  · intro i hi hm
    obtain ⟨j, hj, ej⟩ := List.getElem_of_mem hm
    rw [List.length_take] at hj
    rw [List.getElem_take] at ej
    have hj1 : l[j]? = some true := by rw [List.getElem?_eq_getElem (by omega), ej]
    obtain ⟨y, y1, y2, y3, y4⟩ := EliasFano.predecessor1_eq ov g r hxlt _ (hlt i hi)
      ⟨BitVec.ofNat 64 j, (hmem j (by omega)).2 hj1, by rw [BitVec.le_def, hn j (by omega), hn i (by omega)]; omega⟩
    rw [BitVec.le_def, hn i (by omega)] at y3
    refine ⟨y, y1, y3, (hmem' y y2).2, ?_⟩
    intro q q1 q2 q3
    have := y4 _ ((hmem q (by omega)).2 q3) (by rw [BitVec.le_def, hn q (by omega), hn i (by omega)]; omega)
    rw [BitVec.le_def, hn q (by omega)] at this
    omega
  · intro i hi hm
    obtain ⟨j, hj, ej⟩ := List.getElem_of_mem hm
    rw [List.length_drop] at hj
    rw [List.getElem_drop] at ej
    have hj1 : l[i+j]? = some true := by rw [List.getElem?_eq_getElem (by omega), ej]
    obtain ⟨y, y1, y2, y3, y4⟩ := EliasFano.successor1_eq ov g r _ (hlt i hi)
      ⟨BitVec.ofNat 64 (i+j), (hmem (i+j) (by omega)).2 hj1, by rw [BitVec.le_def, hn (i+j) (by omega), hn i (by omega)]; omega⟩
    rw [BitVec.le_def, hn i (by omega)] at y3
    refine ⟨y, y1, y3, (hmem' y y2).2, ?_⟩
    intro q q1 q2 q3
    have hyl := (hmem' y y2).1
    have := y4 _ ((hmem q (by omega)).2 q3) (by rw [BitVec.le_def, hn q (by omega), hn i (by omega)]; omega)
    rw [BitVec.le_def, hn q (by omega)] at this
    omega

example : exampleProg.spec.map (fun l => (l.length, l.length - l.count true)) = some (140, 8) ∧
    ((Builder.run exampleProg).bind (fun b => EliasFano.ofBitmap b true)).bind (fun ef => ef.rank (fun _ _ => 0) 100) =
      exampleProg.spec.map (fun l => rank1 l 100) := by decide +kernel

/-- **C26.** `elias_fano_list` returns the integers it was built from, their number and their sum, as long
as the sum is below `2^64 - 1`. -/
theorem C26_list (v : List Word) (hs : (v.map BitVec.toNat).sum < 2^64 - 1) (hl : v.length ≤ 2^62) :
    ∃ t, EFList.build v = some t ∧ t.size = v.length ∧ t.sum.toNat = (v.map BitVec.toNat).sum ∧
      ∀ ov i, i < v.length → t.get ov i = v[i]? := by
  obtain ⟨t, hb, e, g⟩ := EFList.build_good v hs hl
  refine ⟨t, e, ?_, ?_, ?_⟩
  · rw [← EFList.psums_length 0 v]; exact g.ones
  · unfold EFList.sum
    rw [g.size, BitVec.add_sub_cancel, EFList.foldl_add_toNat v 0 (by show 0 + _ < _; omega)]
    exact Nat.zero_add _
  · intro ov i hi
    rw [EFList.get_eq ov v t hb _ g i hi, List.getElem?_eq_getElem hi]

example : (EFList.build [5, 0, 0, 1000000, 7]).bind (fun t => t.get (fun _ _ => 0) 3) = some 1000000 ∧
    (EFList.build [5, 0, 0, 1000000, 7]).map (fun t => t.sum) = some 1000012 := by decide +kernel

/-- The bound on the sum is sharp: with sum `2^64 - 1` the universe wraps to 0 and the constructor's
assertions fail. -/
theorem C26_sum_sharp : EFList.build [BitVec.allOnes 64] = none := by decide +kernel

/-- **C27.** `elias_fano_compressed_list` returns the integers it was built from, each below `2^64 - 1`.
The bound on the length keeps the number of stored bits below `2^63`. -/
theorem C27_compressed_list (v : List Word) (hv : ∀ x ∈ v, x ≠ BitVec.allOnes 64) (hl : v.length < 2^57) :
    ∃ t, EFCompressedList.build v = some t ∧ t.size = some v.length ∧
      ∀ ov i, i < v.length → t.get ov i = v[i]? := by
  obtain ⟨t, hb, n, e, g, r⟩ := EFCompressedList.build_good v hv hl
  refine ⟨t, e, ?_, ?_⟩
  · unfold EFCompressedList.size EliasFano.numOnes
    rw [g.ones, List.length_cons, EFCompressedList.offs_length, subU_eq _ _ (by omega)]; rfl
  · intro ov i hi
    rw [EFCompressedList.get_eq ov v hv hl t n hb g r i hi, List.getElem?_eq_getElem hi]

example : (EFCompressedList.build [5, 0, 0, 1000000, 0xfffffffffffffffe]).bind (fun t => t.get (fun _ _ => 0) 4) =
    some 0xfffffffffffffffe := by decide +kernel

/-- The excluded value is indeed not storable: `msb(0)` fails its assertion. -/
theorem C27_max_rejected : EFCompressedList.build [1, BitVec.allOnes 64] = none := by decide +kernel

end Succinct
