import Verif.Lemmas.PerfFano
import Verif.Props.EliasFano

/-! # C114: the sequences and the benchmark of `perftest_elias_fano.cpp` -/
namespace Succinct
open RSBitVector (bind_pure_some)
open Perf

/-- Whatever the random numbers, `m` calls of `next` return `m` nondecreasing values below `2^bits`, after which `done()` holds, not before, and
one more call fails its assertion. -/
theorem C114_generator (bits m : Nat) (hb : bits ≤ 64) (hm : 0 < m) (d : Nat → Nat) :
    ∃ l g, (Gen.new m).pull bits d m = some (l, g) ∧ l.length = m ∧ l.Pairwise (· ≤ ·) ∧ (∀ x ∈ l, x.toNat < 2^bits) ∧
      g.done = true ∧ g.next bits d = none ∧
      ∀ k, k < m → ∃ l' g', (Gen.new m).pull bits d k = some (l', g') ∧ l' = l.take k ∧ g'.done = false := by
  obtain ⟨h1, h2⟩ := new_chain bits m hm
  obtain ⟨l, g, e1, e2, e3, e4, e5⟩ := pull_ok hb d m h1 h2
  refine ⟨l, g, e1, e3, e4, fun x hx => (e5 x hx).2, ?_, ?_, fun k hk => ?_⟩
  · rw [Gen.done, e2]; rfl
  · rw [Gen.next, e2]
  · obtain ⟨l1, g1, p1, p2, p3⟩ := pull_split bits d k m (by omega) _ _ _ e1
    refine ⟨l1, g1, p1, p2, ?_⟩
    cases hs : g1.stack with
    | nil =>
      exfalso
      obtain ⟨j, hj⟩ : ∃ j, m - k = j + 1 := ⟨m - k - 1, by omega⟩
      rw [hj, Gen.pull, Gen.next, hs] at p3
      cases p3
    | cons a b => rw [Gen.done, hs]; rfl

/-- Every nondecreasing sequence of at least one value below `2^bits` can come out. -/
theorem C114_every_sequence (bits : Nat) (hb : bits ≤ 64) (l : List Word) (h0 : l ≠ []) (hs : l.Pairwise (· ≤ ·)) (hl : ∀ x ∈ l, x.toNat < 2^bits) :
    ∃ d g, (Gen.new l.length).pull bits d l.length = some (l, g) ∧ g.done = true := by
  have hpos : 0 < l.length := List.length_pos_iff.2 h0
  have hf : Fits bits (Gen.new l.length).stack l := by
    refine ⟨Nat.le_refl _, fun x hx => ⟨Nat.zero_le _, ?_⟩, List.drop_length⟩
    show x.toNat < 0 + 2^(bits - 0)
    rw [Nat.zero_add, Nat.sub_zero]
    exact hl x (List.take_subset _ _ hx)
  obtain ⟨ds, hds⟩ := pull_fits hb l hs (new_chain bits l.length hpos).1 hf
  obtain ⟨k', hk⟩ := hds (fun i => ds.getD i 0) 0 (fun i x hx => by
    rw [Nat.zero_add]
    show ds.getD i 0 = x
    rw [List.getD_eq_getElem?_getD, hx]; rfl)
  exact ⟨_, _, hk, rfl⟩

/-- The benchmark leaves in `vfoo` the exclusive or of the generated values: the enumerator read back what was pushed. -/
theorem C114_benchmark (bits m : Nat) (hb : bits < 64) (hm : 0 < m) (hc : m ≤ 2^62) (d : Nat → Nat) :
    ∃ l g, (Gen.new m).pull bits d m = some (l, g) ∧ efBenchmark d m bits = some (l.foldl (· ^^^ ·) 0) := by
  obtain ⟨l, g, e1, e2, e3, e4, e5, _, _⟩ := C114_generator bits m (by omega) hm d
  refine ⟨l, g, e1, ?_⟩
  have hn : ((1 : Word) <<< bits).toNat = 2^bits := by
    rw [BitVec.toNat_shiftLeft]
    show (1 <<< bits) % 2^64 = _
    rw [Nat.shiftLeft_eq, Nat.one_mul, Nat.mod_eq_of_lt (Nat.pow_lt_pow_right (by omega) hb)]
  have hst : Storable ((1 : Word) <<< bits) m l :=
    ⟨e3, fun x hx => BitVec.le_def.2 (by rw [hn]; exact Nat.le_of_lt (e4 x hx)), by omega, hc, fun h => by omega⟩
  obtain ⟨ef, f1, f2⟩ := C24_select_enumerator _ m l hst true
  obtain ⟨e, f3, f4⟩ := f2 0 m (by omega) (by omega)
  unfold EliasFano.ofSeq at f1
  simp only [Option.bind_eq_bind, Option.bind_eq_some_iff] at f1
  obtain ⟨b0, f5, b1, f6, f7⟩ := f1
  rw [List.drop_zero, List.take_of_length_le (by omega)] at f4
  unfold efBenchmark
  rw [shl_eq _ _ hb, bind_pure_some, f5, bind_pure_some, fill_eq _ _ _ _ _ _ _ e1, f6, Option.map_some, bind_pure_some]
  dsimp only
  rw [assertP_eq _ e5, bind_pure_some, f7, bind_pure_some, f3, bind_pure_some]
  exact xorLoop_eq ef m e 0 l f4

/-- Without values the assertion `mgen.done()` fails: the stack starts with a node of no values.  With 64 bits or more the universe
`1 << bits` is a shift by the width of the word or more. -/
theorem C114_benchmark_fails (d : Nat → Nat) (m bits : Nat) (h : m = 0 ∨ 64 ≤ bits) : efBenchmark d m bits = none := by
  by_cases hb : bits < 64
  · obtain rfl : m = 0 := by omega
    unfold efBenchmark
    rw [shl_eq _ _ hb, bind_pure_some]
    cases EFBuilder.new ((1 : Word) <<< bits) 0 with
    | none => rfl
    | some b => rfl
  · unfold efBenchmark
    rw [shl, if_neg (by omega)]; rfl

/-- The generator alone is undefined for more than 64 bits as soon as a node sends a value to its right child at a depth of less than `bits - 64`. -/
theorem C114_wide (bits m : Nat) (hb : 64 < bits) (hm : 0 < m) (d : Nat → Nat) (hd : d 0 % (m + 1) < m) : (Gen.new m).next bits d = none := by
  obtain ⟨b, rfl⟩ : ∃ b, bits = b + 1 := ⟨bits - 1, by omega⟩
  unfold Gen.next Gen.new
  dsimp only
  unfold descend
  rw [if_pos (by dsimp only; omega)]
  dsimp only
  rw [subU_eq _ _ (by omega), bind_pure_some]
  unfold pushRight
  rw [if_pos (by omega)]
  dsimp only
  rw [shl, if_neg (by omega)]; rfl

/-- five values of three bits -/
def exampleDraws (i : Nat) : Nat := (7 * i * i + 3 * i + 2) % 11

example : (Gen.new 5).pull 3 exampleDraws 5 = some ([0, 3, 4, 6, 6], ⟨[], 7⟩) := by decide +kernel
example : efBenchmark exampleDraws 5 3 = some 7 := by
  obtain ⟨l, g, h1, h2⟩ := C114_benchmark 3 5 (by decide) (by decide) (by decide) exampleDraws
  rw [show (Gen.new 5).pull 3 exampleDraws 5 = some ([0, 3, 4, 6, 6], ⟨[], 7⟩) by decide +kernel] at h1
  cases h1
  rw [h2]; decide +kernel
example : efBenchmark exampleDraws 0 3 = none ∧ efBenchmark exampleDraws 5 64 = none :=
  ⟨C114_benchmark_fails _ _ _ (.inl rfl), C114_benchmark_fails _ _ _ (.inr (by decide))⟩

end Succinct
