import Verif.Lemmas.MachineEF
import Verif.Props.Machine

/-!
# C75: `darray`, `darray64` and `elias_fano` in arithmetic modulo `2^64`

`Verif/Model/MachineEF.lean` runs these structures with wrapping 64-bit words.  The queries have the specified
results for every 64-bit argument, also where the code subtracts 1 from the rank 0 (`predecessor1`) or adds 1 to
`2^64 - 1` (`predecessor1`, `select_range`).

The bounds on the constructor arguments of `elias_fano` keep the two parts below `2^63` bits.
-/
namespace Succinct
open Spec
open Machine (W)
open RSBitVector (bind_pure_some)

/-- **C75**, `darray1` and `darray0` over a vector built by a history. -/
theorem C75_darray (p : Prog) (l : List Bool) (h : p.spec = some l) (hr : p.ReserveAligned) (hl : l.length ≤ 2^63) :
    ∃ bv d1 d0, Machine.history p = some bv ∧ Machine.Darray.build false bv = some d1 ∧ Machine.Darray.build true bv = some d0 ∧
      d1.positions.toNat = l.count true ∧ d0.positions.toNat = l.count false ∧
      (∀ i : Word, i.toNat < l.count true → ∃ q, d1.select false bv i = some q ∧ IsSelect1 l i.toNat q.toNat) ∧
      (∀ i : Word, l.count true ≤ i.toNat → d1.select false bv i = none) ∧
      (∀ i : Word, i.toNat < l.count false → ∃ q, d0.select true bv i = some q ∧ IsSelect0 l i.toNat q.toNat) ∧
      (∀ i : Word, l.count false ≤ i.toNat → d0.select true bv i = none) := by
  have hrep := BitVector.ofRange_rep l
  have hf := Machine.BitVector.Fits.of_rep hrep hl
  obtain ⟨d1, e1, m1, p1, f1⟩ := Machine.EliasFano.darray_build false hrep hl
  obtain ⟨d0, e0, m0, p0, f0⟩ := Machine.EliasFano.darray_build true hrep hl
  obtain ⟨d1', a1, a2, a3, a4⟩ := C18_darray1 l
  obtain ⟨d0', b1, b2, b3, b4⟩ := C18_darray0 l
  obtain rfl := Option.some.inj (e1.symm.trans a1)
  obtain rfl := Option.some.inj (e0.symm.trans b1)
  have s1 : ∀ i : Word, Machine.Darray.select false (Machine.Darray.enc d1) (Machine.BitVector.enc (BitVector.ofRange l)) i = _ :=
    fun i => Machine.Darray.select_eq false d1 _ hf (by omega) f1 i
  have s0 : ∀ i : Word, Machine.Darray.select true (Machine.Darray.enc d0) (Machine.BitVector.enc (BitVector.ofRange l)) i = _ :=
    fun i => Machine.Darray.select_eq true d0 _ hf (by omega) f0 i
  have hlt : ∀ {b : Bool} {q : Nat}, l[q]? = some b → (W q).toNat = q := by
    intro b q hq
    obtain ⟨hq', _⟩ := List.getElem?_eq_some_iff.1 hq
    exact Machine.W_toNat _ (by omega)
  refine ⟨_, _, _, Machine.history_eq p l h hr hl, m1, m0, ?_, ?_, fun i hi => ?_, fun i hi => ?_, fun i hi => ?_, fun i hi => ?_⟩
  · show (W d1.positions).toNat = _
    rw [Machine.W_toNat _ (by omega), a2]
  · show (W d0.positions).toNat = _
    rw [Machine.W_toNat _ (by omega), b2]
  · obtain ⟨q, q1, q2⟩ := a3 _ hi
    exact ⟨W q, by rw [s1, q1]; rfl, by rw [hlt q2.1]; exact q2⟩
  · rw [s1, a4 _ hi]; rfl
  · obtain ⟨q, q1, q2⟩ := b3 _ hi
    exact ⟨W q, by rw [s0, q1]; rfl, by rw [hlt q2.1]; exact q2⟩
  · rw [s0, b4 _ hi]; rfl

/-- the 140 bits of the running example; position `5` of the zeros and an index that is out of range -/
example : exampleProg.spec.map (fun l => decide (l.length ≤ 2^63)) = some true ∧
    (Machine.history exampleProg).bind (fun bv => (Machine.Darray.build true bv).bind fun d => d.select true bv 5) =
      ((Builder.run exampleProg).bind BitVector.ofBuilder).bind (fun bv => ((Darray.build true bv).bind fun d => d.select true bv 5).map W) ∧
    (Machine.history exampleProg).bind (fun bv => (Machine.Darray.build true bv).bind fun d => d.select true bv (BitVec.allOnes 64)) = none := by
  decide +kernel

/-- **C75**, `darray64` built by `append1` calls with skips of at most 64 zeros. -/
theorem C75_darray64 (ks : List Word) (hks : ∀ k ∈ ks, k.toNat ≤ 64) (hl : (unary (ks.map BitVec.toNat)).length ≤ 2^63) :
    ∃ b d, (Machine.Darray64.new.bind fun b0 => ks.foldlM Machine.Darray64.append1 b0) = some b ∧ Machine.Darray64.ofBuilder b = some d ∧
      d.numOnes.toNat = ks.length ∧
      (∀ i : Word, d.bits.access i = (unary (ks.map BitVec.toNat))[i.toNat]?) ∧
      (∀ i : Word, i.toNat < ks.length → ∃ q, d.select i = some q ∧ IsSelect1 (unary (ks.map BitVec.toNat)) i.toNat q.toNat) ∧
      (∀ i : Word, ks.length ≤ i.toNat → d.select i = none) := by
  have hW : (ks.map BitVec.toNat).map W = ks := by
    rw [List.map_map]
    conv_rhs => rw [← List.map_id ks]
    apply List.map_congr_left
    intro x _; exact Machine.W_of x
  have hlen : ks.length = (ks.map BitVec.toNat).length := by rw [List.length_map]
  rw [hlen]
  generalize hns : ks.map BitVec.toNat = ns at *
  have hns' : ∀ k ∈ ns, k ≤ 64 := by
    intro k hk
    rw [← hns] at hk
    obtain ⟨x, hx, rfl⟩ := List.mem_map.1 hk
    exact hks x hx
  rw [← hW]
  have hul := unary_length ns
  obtain ⟨b0, e0, g0⟩ := Darray64.new_good
  have m0 : Machine.Darray64.new = some (Machine.Darray64.encB b0) := by
    unfold Darray64.new at e0
    simp only [Option.bind_eq_bind, Option.bind_eq_some_iff] at e0
    obtain ⟨s, e0, h0⟩ := e0
    obtain rfl := Option.some.inj h0
    unfold Machine.Darray64.new
    have : Machine.Builder.new 0 false = some (Machine.Builder.enc s) := by
      have := Machine.Builder.new_eq 0 false (by decide)
      rw [e0] at this; exact this
    rw [this]; rfl
  obtain ⟨b, e, g, m⟩ := Machine.Darray64.fold_eq ns b0 [] g0 hns' (by simp) (by simp; omega)
  rw [List.nil_append] at g
  obtain ⟨v, ev, hv⟩ := BitVector.ofBuilder_rep b.bits _ g.bits
  have hf := Machine.BitVector.Fits.of_rep hv hl
  have hbs := g.bits.size
  have hbl := g.bits.len
  have hn := g.n
  obtain ⟨b', d', c1, c2, c3, c4, c5, c6⟩ := C19_darray64 ns hns'
  rw [e0, Option.bind_some, e] at c1
  obtain rfl := Option.some.inj c1
  have ed : Darray64.ofBuilder b = some ⟨b.nOnes, v, b.block, b.subblock⟩ := by
    unfold Darray64.ofBuilder; rw [ev, bind_pure_some]; rfl
  obtain rfl := Option.some.inj (ed.symm.trans c2)
  have hone : ∀ i, i < ns.length → onePos ns i < 2^63 := by
    intro i hi
    obtain ⟨hq, _⟩ := List.getElem?_eq_some_iff.1 (isSelect1_onePos ns i hi).1
    omega
  have hblk : ∀ x ∈ b.block, x < 2^63 := by
    intro x hx
    obtain ⟨j, hj, rfl⟩ := List.getElem_of_mem hx
    have hj' : 1024 * j < ns.length := by have := g.bl; omega
    have := g.blk j hj'
    rw [List.getElem?_eq_getElem hj] at this
    rw [Option.some.inj this]; exact hone _ hj'
  have hsub : ∀ x ∈ b.subblock, x < 2^63 := by
    intro x hx
    obtain ⟨j, hj, rfl⟩ := List.getElem_of_mem hx
    have hj' : 64 * j < ns.length := by have := g.sl; omega
    have := g.sub j hj'
    rw [List.getElem?_eq_getElem hj] at this
    rw [Option.some.inj this]
    have := hone _ hj'
    omega
  have hsel := Machine.Darray64.select_eq ⟨b.nOnes, v, b.block, b.subblock⟩ hf (by show b.nOnes < _; omega) hblk hsub
  refine ⟨Machine.Darray64.encB b, Machine.Darray64.enc ⟨b.nOnes, v, b.block, b.subblock⟩, by rw [m0, Option.bind_some, m], ?_, ?_, fun i => ?_,
    fun i hi => ?_, fun i hi => ?_⟩
  · unfold Machine.Darray64.ofBuilder
    have : Machine.BitVector.ofBuilder (Machine.Builder.enc b.bits) = some (Machine.BitVector.enc v) := by
      rw [Machine.BitVector.ofBuilder_eq _ (by omega) (by omega), ev]; rfl
    rw [show (Machine.Darray64.encB b).bits = Machine.Builder.enc b.bits from rfl, this, bind_pure_some]; rfl
  · show (W b.nOnes).toNat = _
    rw [Machine.W_toNat _ (by omega), hn]
  · show Machine.BitVector.access (Machine.BitVector.enc v) i = _
    rw [Machine.BitVector.access_eq _ hf, BitVector.eq_ofRange hv, (C02_range _).2]
  · obtain ⟨q1, q2⟩ := c5 _ hi
    have := hone _ hi
    exact ⟨W (onePos ns i.toNat), by rw [hsel, q1]; rfl, by rw [Machine.W_toNat _ (by omega)]; exact q2⟩
  · rw [hsel, c6 _ hi]; rfl

example : ((Machine.Darray64.new.bind fun b0 => [3, 0, 64, 5].foldlM Machine.Darray64.append1 b0).bind Machine.Darray64.ofBuilder).bind
      (fun d => d.select 2) = some 69 ∧ (unary [3, 0, 64, 5])[69]? = some true := by decide +kernel

/-- **C75**, `elias_fano`: every query on a stored sequence, for every 64-bit argument. -/
theorem C75_elias_fano (n : Word) (m : Nat) (xs : List Word) (h : Storable n m xs) (hm : m ≤ 2^61) (h0 : m = 0 → n.toNat + 2 ≤ 2^63) :
    ∃ ef, Machine.EliasFano.ofSeq n (W m) xs true = some ef ∧ ef.size = n ∧ ef.numOnes.toNat = xs.length ∧ ∀ ov,
      (∀ k : Word, ef.select ov k = xs[k.toNat]?) ∧
      (∀ pos, pos < n → (ef.rank ov pos).map BitVec.toNat = some (xs.countP (· < pos)) ∧ ef.access ov pos = some (decide (pos ∈ xs))) ∧
      (ef.rank ov n).map BitVec.toNat = some xs.length ∧
      (∀ pos, n < pos → ef.rank ov pos = none) ∧ (∀ pos, n ≤ pos → ef.access ov pos = none) ∧
      (∀ x, xs[0]? = some x → ef.delta ov 0 = some x) ∧
      (∀ (k : Word) x y, xs[k.toNat]? = some x → xs[k.toNat + 1]? = some y →
        ef.delta ov (k + 1) = some (y - x) ∧ (y - x).toNat = y.toNat - x.toNat ∧ ef.selectRange ov k = some (x, y)) ∧
      (∀ k : Word, xs.length ≤ k.toNat → ef.delta ov k = none) ∧
      (∀ k : Word, xs.length ≤ k.toNat + 1 → ef.selectRange ov k = none) := by
  obtain ⟨ef, hb, e, g, r, em, s⟩ := Machine.EliasFano.ofSeq_eq n m xs h hm h0 true
  replace r := r rfl
  have hx := Machine.EliasFano.xs_le s g
  obtain ⟨ef', e', hd⟩ := C23_delta_range n m xs h true
  obtain rfl := Option.some.inj (e.symm.trans e')
  refine ⟨_, em, g.size, ?_, fun ov => ⟨Machine.EliasFano.select_word ov s g, fun pos hp => ⟨?_, ?_⟩, ?_, Machine.EliasFano.rank_gt ov g,
    Machine.EliasFano.access_ge ov g, fun x hx0 => ?_, fun k x y hkx hky => ?_, Machine.EliasFano.delta_none ov s g,
    Machine.EliasFano.selectRange_none ov s g⟩⟩
  · show (W ef.d1.positions).toNat = _
    rw [Machine.W_toNat _ (by have := s.p1; omega), g.ones]
  · have := List.countP_le_length (l := xs) (p := fun x => decide (x < pos))
    rw [Machine.EliasFano.rank_lt ov s g r pos hp, Option.map_some, Machine.W_toNat _ (by omega)]
  · exact Machine.EliasFano.access_some ov s pos _ (Machine.EliasFano.sel0_lt s g r pos (BitVec.le_of_lt hp)) (EliasFano.access_eq ov g r pos hp)
  · rw [Machine.EliasFano.rank_n ov s g r, Option.map_some, Machine.W_toNat _ (by omega)]
  · obtain ⟨h1, _⟩ := List.getElem?_eq_some_iff.1 hx0
    exact Machine.EliasFano.delta_some ov s 0 (by decide) x (fun p hp => by have := Machine.EliasFano.sel1_lt s g 0 h1 p hp; omega) ((hd ov).1 x hx0)
  · obtain ⟨h1, h2, h3⟩ := (hd ov).2 k.toNat x y hkx hky
    obtain ⟨hk, _⟩ := List.getElem?_eq_some_iff.1 hky
    refine ⟨?_, h2, ?_⟩
    · have := Machine.EliasFano.delta_some ov s (k.toNat + 1) (by omega) _ (fun p hp => by have := Machine.EliasFano.sel1_lt s g _ hk p hp; omega) h1
      rwa [Machine.W_add, Machine.W_of] at this
    · have := Machine.EliasFano.selectRange_some ov s k.toNat _ (fun p hp => by have := Machine.EliasFano.sel1_lt s g _ (by omega) p hp; omega) h3
      rwa [Machine.W_of] at this

/-- **C75**, `predecessor1` and `successor1`, for values below the universe: the neighbour where there is one, and
no answer otherwise - in particular the wrapped index `0 - 1` is caught. -/
theorem C75_pred_succ (n : Word) (m : Nat) (xs : List Word) (h : Storable n m xs) (hm : m ≤ 2^61) (h0 : m = 0 → n.toNat + 2 ≤ 2^63)
    (hlt : ∀ x ∈ xs, x < n) :
    ∃ ef, Machine.EliasFano.ofSeq n (W m) xs true = some ef ∧ ∀ ov pos,
      (pos < n → (∃ x ∈ xs, x ≤ pos) → ∃ y, ef.predecessor1 ov pos = some y ∧ y ∈ xs ∧ y ≤ pos ∧ ∀ x ∈ xs, x ≤ pos → x ≤ y) ∧
      (¬ (pos < n ∧ ∃ x ∈ xs, x ≤ pos) → ef.predecessor1 ov pos = none) ∧
      (pos < n → (∃ x ∈ xs, pos ≤ x) → ∃ y, ef.successor1 ov pos = some y ∧ y ∈ xs ∧ pos ≤ y ∧ ∀ x ∈ xs, pos ≤ x → y ≤ x) ∧
      (¬ (pos < n ∧ ∃ x ∈ xs, pos ≤ x) → ef.successor1 ov pos = none) := by
  obtain ⟨ef, hb, e, g, r, em, s⟩ := Machine.EliasFano.ofSeq_eq n m xs h hm h0 true
  replace r := r rfl
  refine ⟨_, em, fun ov pos => ⟨fun hp hx => ?_, Machine.EliasFano.predecessor1_none ov s g r hlt pos, fun hp hx => ?_,
    Machine.EliasFano.successor1_none ov s g r pos⟩⟩
  · obtain ⟨y, y1, y2⟩ := EliasFano.predecessor1_eq ov g r hlt pos hp hx
    exact ⟨y, Machine.EliasFano.predecessor1_some ov s g r pos y hp y1, y2⟩
  · obtain ⟨y, y1, y2⟩ := EliasFano.successor1_eq ov g r pos hp hx
    exact ⟨y, Machine.EliasFano.successor1_some ov s g r pos y hp y1, y2⟩

example : (Machine.EliasFano.ofSeq 31 6 [5, 5, 17, 29, 29, 30] true).bind (fun ef => ef.predecessor1 (fun _ _ => 0) 28) = some 17 ∧
    (Machine.EliasFano.ofSeq 31 6 [5, 5, 17, 29, 29, 30] true).bind (fun ef => ef.predecessor1 (fun _ _ => 0) 4) = none ∧
    (Machine.EliasFano.ofSeq 31 6 [5, 5, 17, 29, 29, 30] true).bind (fun ef => ef.predecessor1 (fun _ _ => 0) (BitVec.allOnes 64)) = none ∧
    (Machine.EliasFano.ofSeq 31 6 [5, 5, 17, 29, 29, 30] true).bind (fun ef => ef.selectRange (fun _ _ => 0) (BitVec.allOnes 64)) = none ∧
    (Machine.EliasFano.ofSeq 31 6 [5, 5, 17, 29, 29, 30] true).bind (fun ef => ef.selectRange (fun _ _ => 0) 1) = some (5, 17) := by
  decide +kernel

/-- The assertion of `select_range` (`elias_fano.hpp:191`) does not reject `2^64 - 1` by itself: `n + 1` wraps to 0.
Only the assertion inside `darray::select` stops the call. -/
theorem C75_select_range_assert : (BitVec.allOnes 64 + 1 : Word) < 1 := by decide

/-- The bound for an empty sequence is needed: with universe `2^64 - 1` and capacity 0 the size of the high part,
`(m + 1) + (n >> l) + 1`, wraps to 1 and `rank(1)` fails. -/
theorem C75_universe_false :
    (Machine.EliasFano.ofSeq (BitVec.allOnes 64) 0 [] true).map (fun ef => ef.high.size) = some 1 ∧
    (Machine.EliasFano.ofSeq (BitVec.allOnes 64) 0 [] true).bind (fun ef => ef.rank (fun _ _ => 0) 1) = none := by
  decide +kernel

end Succinct
