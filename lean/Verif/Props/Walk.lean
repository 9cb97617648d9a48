import Verif.Lemmas.Walk

/-! # C120: how far the linear searches walk

`predecessorC`, `successorC`, `rankC`, … are the functions of the model with a counter of the words, the
low parts or the calls of `lsb` (`Model/Walk`).  Each theorem says both that the counting function returns
what the function returns, and what the counter is. -/
namespace Succinct
open Spec
open RSBitVector (bind_pure_some)

/-- **C120** (backward search): on any words, `predecessor0` and `predecessor1` read exactly the words from
the one of the argument down to the one of the result. -/
theorem C120_predecessor (neg : Bool) (v : BitVector) (pos : Nat) :
    (v.predecessorC neg pos).map Prod.fst = v.predecessor neg pos ∧
      ∀ p, v.predecessor neg pos = some p → v.predecessorC neg pos = some (p, pos / 64 - p / 64 + 1) := by
  refine ⟨BitVector.predecessorC_fst neg v pos, fun p hp => ?_⟩
  obtain ⟨c, e⟩ := BitVector.of_fst (BitVector.predecessorC_fst neg v pos) hp
  have h := BitVector.predecessorC_count _ _ _ _ _ e
  have hc : 1 ≤ c := by
    unfold BitVector.predecessorC at e
    simp only [Option.bind_eq_bind, Option.bind_eq_some_iff] at e
    obtain ⟨_, _, w, _, w1, _, w2, _, ⟨p', c'⟩, _, e⟩ := e
    have e' : (p', c' + 1) = (p, c) := Option.some.inj e
    simp only [Prod.mk.injEq] at e'
    omega
  rw [e, show c = pos / 64 - p / 64 + 1 by omega]

/-- **C120** (forward search): `successor0` and `successor1` read exactly the words from the one of the
argument up to the one of the result. -/
theorem C120_successor (neg : Bool) (v : BitVector) (pos : Nat) :
    (v.successorC neg pos).map Prod.fst = v.successor neg pos ∧
      ∀ p, v.successor neg pos = some p → v.successorC neg pos = some (p, p / 64 - pos / 64 + 1) := by
  refine ⟨BitVector.successorC_fst neg v pos, fun p hp => ?_⟩
  obtain ⟨c, e⟩ := BitVector.of_fst (BitVector.successorC_fst neg v pos) hp
  have h := BitVector.successorC_count _ _ _ _ _ e
  have hc : 1 ≤ c := by
    unfold BitVector.successorC at e
    simp only [Option.bind_eq_bind, Option.bind_eq_some_iff] at e
    obtain ⟨_, _, w, _, w1, _, w2, _, ⟨p', c'⟩, _, e⟩ := e
    have e' : (p', c' + 1) = (p, c) := Option.some.inj e
    simp only [Prod.mk.injEq] at e'
    omega
  rw [e, show c = p / 64 - pos / 64 + 1 by omega]

example : (BitVector.ofRange (true :: List.replicate 200 false)).predecessorC false 200 = some (0, 4) ∧
    (BitVector.ofRange (List.replicate 200 false ++ [true])).successorC false 70 = some (200, 3) := by decide +kernel

/-- **C120** (`darray`): the constructor calls `lsb` once for every word and once for every position it
stores. -/
theorem C120_darray (neg : Bool) (l : List Bool) :
    ∃ d, Darray.build neg (BitVector.ofRange l) = some d ∧
      Darray.buildC neg (BitVector.ofRange l) = some (d, (l.length + 63) / 64 + l.count (!neg)) := by
  have hlen := (BitVector.ofRange_rep l).len
  have key : ∀ d, Darray.build neg (BitVector.ofRange l) = some d → d.positions = l.count (!neg) →
      Darray.buildC neg (BitVector.ofRange l) = some (d, (l.length + 63) / 64 + l.count (!neg)) := by
    intro d e hp
    obtain ⟨c, e'⟩ := BitVector.of_fst (Darray.buildC_fst neg _) e
    have := Darray.buildC_count _ _ _ _ e'
    rw [e', this, hp, hlen]
  cases neg with
  | false => obtain ⟨d, e, hp, _⟩ := C18_darray1 l; exact ⟨d, e, key d e hp⟩
  | true => obtain ⟨d, e, hp, _⟩ := C18_darray0 l; exact ⟨d, e, key d e hp⟩

example : (Darray.buildC true (BitVector.ofRange (List.replicate 70 false ++ [true, true]))).map Prod.snd = some 72 := by
  decide +kernel

/-- **C120** (`elias_fano` from a bitmap): all the calls of `successor1` together read at most one word for
every word of the bitmap and one for every one bit. -/
theorem C120_bitmap (p : Prog) (l : List Bool) (hp : p.spec = some l) (hr : p.ReserveAligned) (hl : l.length < 2^62)
    (wr : Bool) :
    ∃ ef c, (Builder.run p).bind (fun b => EliasFano.ofBitmap b wr) = some ef ∧
      (Builder.run p).bind (fun b => EliasFano.ofBitmapC b wr) = some (ef, c) ∧
      c ≤ (l.length + 63) / 64 + l.count true := by
  obtain ⟨b, eb, ib⟩ := Builder.run_inv p l hp hr
  obtain ⟨ef, hb, e, _⟩ := EliasFano.ofBitmap_good b l ib hl wr
  obtain ⟨c, e'⟩ := BitVector.of_fst (EliasFano.ofBitmapC_fst b wr) e
  have := EliasFano.ofBitmapC_count b l ib wr ef c e'
  rw [wordsFor_eq] at this
  rw [eb]
  exact ⟨ef, c, e, e', this⟩

example : exampleProg.spec.map (fun l => ((l.length + 63) / 64, l.count true)) = some (3, 132) ∧
    ((Builder.run exampleProg).bind (fun b => EliasFano.ofBitmapC b true)).map Prod.snd = some 133 := by decide +kernel

/-- **C120** (`rank` and `operator[]` of `elias_fano`): with the values put into buckets of `w ≤ max 1 (n/m)`
neighbouring integers, both read no more low parts than the bucket of the argument has values; `rank` reads
those not below the argument and at most one more. -/
theorem C120_bucket (n : Word) (m : Nat) (xs : List Word) (h : Storable n m xs) :
    ∃ ef w, EliasFano.ofSeq n m xs true = some ef ∧ 0 < w ∧ w ≤ max 1 (n.toNat / m) ∧ ∀ ov,
      ef.rankC ov n = some (xs.length, 0) ∧
      ∀ pos, pos < n →
        (∃ c, ef.rankC ov pos = some (xs.countP (· < pos), c) ∧
          c ≤ xs.countP (fun y => decide (y.toNat / w = pos.toNat / w)) ∧
          xs.countP (fun y => decide (y.toNat / w = pos.toNat / w) && decide (pos ≤ y)) ≤ c ∧
          c ≤ xs.countP (fun y => decide (y.toNat / w = pos.toNat / w) && decide (pos ≤ y)) + 1) ∧
        (∃ c, ef.accessC ov pos = some (decide (pos ∈ xs), c) ∧
          c ≤ xs.countP (fun y => decide (y.toNat / w = pos.toNat / w))) := by
  obtain ⟨ef, hb, e, g, r⟩ := EliasFano.ofSeq_good n m xs h true
  replace r := r rfl
  refine ⟨ef, 2^ef.l, e, Nat.two_pow_pos _, EliasFano.two_pow_le (EliasFano.ofSeq_shape e).hl, fun ov => ⟨?_, fun pos hp =>
    ⟨EliasFano.rankC_count ov g r pos hp, EliasFano.accessC_count ov g r pos hp⟩⟩⟩
  unfold EliasFano.rankC
  rw [g.size, assertP_eq _ (BitVec.le_def.2 (Nat.le_refl _)), bind_pure_some, assertP_eq _ r.pos, bind_pure_some, if_pos rfl]
  unfold EliasFano.numOnes; rw [g.ones]; rfl

/-- **C120** (distinct values): if no value is stored twice, then `rank` and `operator[]` read at most
`max 1 (n/m)` low parts. -/
theorem C120_distinct (n : Word) (m : Nat) (xs : List Word) (h : Storable n m xs) (hd : xs.Pairwise (· < ·)) :
    ∃ ef, EliasFano.ofSeq n m xs true = some ef ∧ ∀ ov pos, pos < n →
      (∃ c, ef.rankC ov pos = some (xs.countP (· < pos), c) ∧ c ≤ max 1 (n.toNat / m)) ∧
      (∃ c, ef.accessC ov pos = some (decide (pos ∈ xs), c) ∧ c ≤ max 1 (n.toNat / m)) := by
  obtain ⟨ef, hb, e, g, r⟩ := EliasFano.ofSeq_good n m xs h true
  replace r := r rfl
  refine ⟨ef, e, fun ov pos hp => ?_⟩
  have h1 := EliasFano.two_pow_le (EliasFano.ofSeq_shape e).hl
  have h2 := EliasFano.sameHigh_distinct ef.l pos xs hd
  obtain ⟨c, e1, c1, _⟩ := EliasFano.rankC_count ov g r pos hp
  obtain ⟨c', e2, c2⟩ := EliasFano.accessC_count ov g r pos hp
  exact ⟨⟨c, e1, by omega⟩, ⟨c', e2, by omega⟩⟩

/-- **C120** (no better bound): `k` copies of one value make `rank` read `k` low parts. -/
theorem C120_rank_linear (k : Nat) (hk : k ≤ 2^62) :
    ∃ ef, EliasFano.ofSeq 1 k (List.replicate k 0) true = some ef ∧ ∀ ov, ef.rankC ov 0 = some (0, k) := by
  have hs : Storable 1 k (List.replicate k 0) :=
    ⟨List.pairwise_replicate.2 (Or.inr (BitVec.le_def.2 (Nat.le_refl _))),
      fun x hx => by rw [List.eq_of_mem_replicate hx]; decide, by simp, hk, fun _ => by decide⟩
  obtain ⟨ef, w, e, _, _, h⟩ := C120_bucket 1 k _ hs
  refine ⟨ef, e, fun ov => ?_⟩
  obtain ⟨⟨c, e1, c1, c2, _⟩, _⟩ := (h ov).2 0 (by decide)
  rw [e1]
  have h1 : (List.replicate k (0 : Word)).countP (fun y => decide (y.toNat / w = (0 : Word).toNat / w)) = k := by
    rw [List.countP_eq_length.2 (fun a ha => by rw [List.eq_of_mem_replicate ha]; simp), List.length_replicate]
  have h2 : (List.replicate k (0 : Word)).countP
      (fun y => decide (y.toNat / w = (0 : Word).toNat / w) && decide ((0 : Word) ≤ y)) = k := by
    rw [List.countP_eq_length.2 (fun a ha => by rw [List.eq_of_mem_replicate ha]; simp), List.length_replicate]
  have h3 : (List.replicate k (0 : Word)).countP (· < 0) = 0 := by
    rw [List.countP_eq_zero.2 (fun a ha => by rw [List.eq_of_mem_replicate ha]; decide)]
  rw [h1] at c1
  rw [h2] at c2
  rw [h3, show c = k by omega]

example : ((EliasFano.ofSeq 30 6 exampleSeq true).bind fun ef => ef.rankC (fun _ _ => 0) 2) = some (1, 3) ∧
    ((EliasFano.ofSeq 30 6 exampleSeq true).bind fun ef => ef.accessC (fun _ _ => 0) 2) = some (false, 3) := by decide +kernel

/-- **C120** (`delta` and `select_range`): between two neighbouring values `a ≤ b` the search in the high
bits reads at most `(b/w - a/w)/64 + 2` words, where `2*m*w` exceeds the universe. -/
theorem C120_gap (n : Word) (m : Nat) (xs : List Word) (h : Storable n m xs) (wr : Bool) :
    ∃ ef w, EliasFano.ofSeq n m xs wr = some ef ∧ 0 < w ∧ (0 < m → n.toNat < 2 * m * w) ∧ ∀ ov,
      (∀ a, xs[0]? = some a → ef.deltaC ov 0 = some (a, 0)) ∧
      ∀ k a b, xs[k]? = some a → xs[k+1]? = some b →
        (∃ c, ef.deltaC ov (k+1) = some (b - a, c) ∧ c ≤ (b.toNat / w - a.toNat / w) / 64 + 2) ∧
        (∃ c, ef.selectRangeC ov k = some ((a, b), c) ∧ c ≤ (b.toNat / w - a.toNat / w) / 64 + 2) := by
  obtain ⟨ef, hb, e, g, _⟩ := EliasFano.ofSeq_good n m xs h wr
  refine ⟨ef, 2^ef.l, e, Nat.two_pow_pos _, ?_, fun ov => ⟨?_, ?_⟩⟩
  · intro hm
    rcases EFBuilder.lowLen_spec (EliasFano.ofSeq_shape e).hl with ⟨h1, h2⟩ | ⟨_, _, h3, _⟩
    · rw [h2]; omega
    · rw [Nat.pow_succ] at h3
      rw [Nat.mul_comm 2 m, Nat.mul_assoc, Nat.mul_comm 2]; exact h3
  · intro a ha
    obtain ⟨h0, rfl⟩ := List.getElem?_eq_some_iff.1 ha
    exact EliasFano.deltaC_zero ov g h0
  · intro k a b ha hb'
    obtain ⟨h0, rfl⟩ := List.getElem?_eq_some_iff.1 ha
    obtain ⟨h1, rfl⟩ := List.getElem?_eq_some_iff.1 hb'
    exact ⟨EliasFano.deltaC_count ov g k h1, EliasFano.selectRangeC_count ov g k h1⟩

example : ((EliasFano.ofSeq 2000 3 [0, 0, 2000] false).bind fun ef => ef.deltaC (fun _ _ => 0) 2) = some (2000, 1) ∧
    ((EliasFano.ofSeq 300 300 [0, 300] false).bind fun ef => ef.selectRangeC (fun _ _ => 0) 0) = some ((0, 300), 5) := by
  decide +kernel

end Succinct
