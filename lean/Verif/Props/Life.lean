import Verif.Lemmas.Life
import Verif.Lemmas.Fits
import Verif.Lemmas.SpaceEF
import Verif.Lemmas.MapperProps
import Verif.Props.BitVector
import Verif.Props.RSBitVector
import Verif.Props.EliasFano
import Verif.Props.Gamma
import Verif.Props.CartesianTree

/-! # C59-C61: swap and dispose, default construction, appending a builder to itself -/
namespace Succinct
open Spec Mapper

/-! ## C59 -/

/-- what `objs[i].swap(objs[j])` has to do, also for `i = j` -/
def Exchanges {T : Type} (swap : Field T T → Objs T → Nat → Nat → Objs T) : Prop :=
  ∀ (s : Objs T) (i j : Nat), (swap .whole s i j) i = s j ∧ (swap .whole s i j) j = s i ∧ ∀ k, k ≠ i → k ≠ j → (swap .whole s i j) k = s k

theorem exchanges_of {T : Type} {swap : Field T T → Objs T → Nat → Nat → Objs T}
    (h : ∀ s i j, swap .whole s i j = stdSwap .whole s i j) : Exchanges swap := by
  intro s i j
  rw [h, stdSwap_whole]
  refine ⟨by simp, ?_, fun k h1 h2 => by simp [h1, h2]⟩
  by_cases e : j = i <;> simp [e]

/-- **C59.** `swap` exchanges the complete state of two objects, of every class, and leaves all other objects
(and the object itself, when swapped with itself) as they are. -/
theorem C59_swap {α : Type} : Exchanges Builder.swap ∧ Exchanges BitVector.swap ∧ Exchanges RSBitVector.swap ∧ Exchanges BpVector.swap ∧
    Exchanges Darray.swap ∧ Exchanges Darray64.swap ∧ Exchanges EliasFano.swap ∧ Exchanges EFList.swap ∧ Exchanges EFCompressedList.swap ∧
    Exchanges GammaVec.swap ∧ Exchanges CartesianTree.swap ∧ Exchanges (TopK.swap (α := α)) ∧ Exchanges (TopKEnum.swap (α := α)) ∧
    Exchanges NibbleVector.swap :=
  ⟨exchanges_of (Builder.swap_eq Field.whole_ok), exchanges_of (BitVector.swap_eq Field.whole_ok), exchanges_of (RSBitVector.swap_eq Field.whole_ok),
   exchanges_of (BpVector.swap_eq Field.whole_ok), exchanges_of (Darray.swap_eq Field.whole_ok), exchanges_of (Darray64.swap_eq Field.whole_ok),
   exchanges_of (EliasFano.swap_eq Field.whole_ok), exchanges_of (EFList.swap_eq Field.whole_ok), exchanges_of (EFCompressedList.swap_eq Field.whole_ok),
   exchanges_of (GammaVec.swap_eq Field.whole_ok), exchanges_of (CartesianTree.swap_eq Field.whole_ok), exchanges_of (TopK.swap_eq Field.whole_ok),
   exchanges_of (TopKEnum.swap_eq Field.whole_ok), exchanges_of (NibbleVector.swap_eq Field.whole_ok)⟩

/-- `dispose(x)` leaves `x` default constructed, whatever the class, and touches no other object -/
theorem C59_dispose {T : Type} (swap : Field T T → Objs T → Nat → Nat → Objs T) (h : Exchanges swap) (dflt : T) (tmp i : Nat) (s : Objs T) :
    (dispose swap dflt tmp s i) i = dflt ∧ ∀ k, k ≠ i → k ≠ tmp → (dispose swap dflt tmp s i) k = s k := by
  obtain ⟨h1, h2, h3⟩ := h (s.put tmp dflt) tmp i
  refine ⟨?_, fun k k1 k2 => ?_⟩
  · unfold dispose; rw [h2]; simp [Objs.put]
  · unfold dispose; rw [h3 k k2 k1]; simp [Objs.put, k2]

/-- two different bit vectors change places -/
example : (BitVector.swap .whole (fun k => if k = 0 then BitVector.ofRange [true] else BitVector.ofRange [false, true]) 0 1) 0 =
    BitVector.ofRange [false, true] := by decide +kernel

/-! ## C60

What an empty object has to answer: `size() = 0`, and `rank(0) = 0` where there is a rank.  `u` is the
indeterminate value of a member that the constructor does not initialise. -/

/-- **C60** for the classes where it holds: a default constructed object has size 0, no ones, and no valid index. -/
theorem C60_default_partial :
    BitVector.dflt = BitVector.ofRange [] ∧ Darray.build false (BitVector.ofRange []) = some Darray.dflt ∧ Darray.build true (BitVector.ofRange []) = some Darray.dflt ∧
    Darray64.dflt.numOnes = 0 ∧ (∀ i, Darray64.dflt.select i = none) ∧
    (∀ u, (EliasFano.dflt u).size = 0 ∧ (EliasFano.dflt u).numOnes = 0 ∧ ∀ ov i, (EliasFano.dflt u).select ov i = none) ∧
    (∀ u, (EFList.dflt u).size = 0 ∧ ∀ ov i, (EFList.dflt u).get ov i = none) ∧
    NibbleVector.build [] = some NibbleVector.empty ∧
    RSBitVector.dflt.bv.size = 0 ∧ (∀ u, (BpVector.dflt u).rs.bv.size = 0) ∧
    (∀ (α : Type) (u : Nat), (TopK.dflt u : TopK α).v = []) := by
  refine ⟨by decide +kernel, by decide +kernel, by decide +kernel, rfl, fun i => rfl, fun u => ⟨rfl, rfl, fun ov i => rfl⟩, fun u => ⟨rfl, fun ov i => ?_⟩,
    by decide +kernel, rfl, fun u => rfl, fun α u => rfl⟩
  rfl

/-- **C60** is false for `rs_bit_vector`: `num_ones()`, `num_zeros()`, `rank(0)` and `rank0(0)` of a default constructed object read before the
beginning of an empty array, while the object built from an empty range answers 0 -/
theorem C60_rs_bit_vector_false :
    RSBitVector.dflt.numOnes = none ∧ RSBitVector.dflt.numZeros = none ∧ RSBitVector.dflt.rank 0 = none ∧ RSBitVector.dflt.rank0 0 = none ∧
    ∃ v, RSBitVector.build (BitVector.ofRange []) false false = some v ∧ v.numOnes = some 0 ∧ v.numZeros = some 0 ∧ v.rank 0 = some 0 ∧ v.rank0 0 = some 0 :=
  ⟨by decide +kernel, by decide +kernel, by decide +kernel, by decide +kernel, _, rfl, by decide +kernel, by decide +kernel, by decide +kernel, by decide +kernel⟩

/-- ... for `bp_vector`: `excess(0)` -/
theorem C60_bp_vector_false (u : Nat) : (BpVector.dflt u).excess 0 = none ∧
    ∃ v, BpVector.build (BitVector.ofRange []) false false = some v ∧ v.excess 0 = some 0 :=
  ⟨rfl, _, rfl, by decide +kernel⟩

/-- ... for `elias_fano`: `rank(0)` -/
theorem C60_elias_fano_false (ov : Word → Nat → Word) (u : Nat) : (EliasFano.dflt u).rank ov 0 = none ∧
    ∃ ef, EliasFano.ofSeq 0 0 [] true = some ef ∧ ef.rank ov 0 = some 0 :=
  ⟨rfl, _, rfl, rfl⟩

/-- ... for `elias_fano_list`: `sum()` is `2^64 - 1` -/
theorem C60_elias_fano_list_false (u : Nat) : (EFList.dflt u).sum.toNat = 2^64 - 1 ∧ ∃ t, EFList.build [] = some t ∧ t.sum = 0 :=
  ⟨rfl, _, rfl, rfl⟩

/-- ... and the subtraction in `size()` wraps around to `2^64 - 1` for `elias_fano_compressed_list`, both gamma vectors and `cartesian_tree` -/
theorem C60_size_false (u : Nat) :
    (EFCompressedList.dflt u).ef.numOnes = 0 ∧ (EFCompressedList.dflt u).size = none ∧
    GammaVec.dflt.high.numOnes = 0 ∧ GammaVec.dflt.size = none ∧
    (CartesianTree.dflt u).bp.rs.bv.size = 0 ∧ (CartesianTree.dflt u).size = none ∧
    ((EFCompressedList.build []).bind EFCompressedList.size = some 0 ∧ (GammaVector.build []).bind GammaVec.size = some 0 ∧
      (GammaBitVector.build []).bind GammaVec.size = some 0 ∧
      (CartesianTree.build (fun x y : Nat => decide (x < y)) []).bind CartesianTree.size = some 0) :=
  ⟨rfl, rfl, rfl, rfl, rfl, by simp only [CartesianTree.size, CartesianTree.dflt, BpVector.dflt, RSBitVector.dflt, BitVector.dflt]; decide, by decide +kernel, by decide +kernel, by decide +kernel, by decide +kernel⟩

/-- Default constructed objects are nevertheless restored by freeze and map (the indeterminate members included). -/
theorem C60_restores : RestoresAt Codec.bitVector BitVector.dflt ∧ RestoresAt Codec.rsBitVector RSBitVector.dflt ∧
    (∀ u < 2^64, RestoresAt Codec.bpVector (BpVector.dflt u)) ∧ RestoresAt Codec.darray Darray.dflt ∧ RestoresAt Codec.darray64 Darray64.dflt ∧
    (∀ u < 2^8, RestoresAt Codec.eliasFano (EliasFano.dflt u)) ∧ RestoresAt Codec.nibbleVector NibbleVector.empty := by
  have nil : ∀ {α : Type} (p : α → Prop), ([] : List α).length < 2^60 ∧ ∀ x ∈ ([] : List α), p x := fun p => ⟨by simp, nofun⟩
  have z : (0 : Nat) < 2^64 := by decide
  have hb : Codec.bitVector.fits BitVector.dflt := Codec.bitVector_fits (by decide) (by decide)
  have hr : Codec.rsBitVector.fits RSBitVector.dflt := ⟨hb, nil _, nil _, nil _⟩
  have hd : Codec.darray.fits Darray.dflt := ⟨z, nil _, nil _, nil _⟩
  refine ⟨Codec.bitVector_lawful.restores _ hb, Codec.rsBitVector_lawful.restores _ hr, fun u hu => Codec.bpVector_lawful.restores _ ?_,
    Codec.darray_lawful.restores _ hd, Codec.darray64_lawful.restores _ ?_, fun u hu => Codec.eliasFano_lawful.restores _ ?_,
    Codec.nibbleVector_lawful.restores _ ?_⟩
  · exact ⟨hr, hu, nil _, nil _⟩
  · exact ⟨z, hb, nil _, nil _⟩
  · exact ⟨trivial, hb, hd, hd, hb, hu⟩
  · exact ⟨z, nil _⟩

/-! ## C61 -/

namespace Builder

theorem appendSelfLoop_bound {shift : Nat} : ∀ (n i : Nat) (ws : List Word) (c : Nat) (r : List Word × Nat),
    appendSelfLoop shift n i ws c = some r → n = 0 ∨ c + n < ws.length
  | 0, _, _, _, _, _ => .inl rfl
  | n+1, i, ws, c, r, h => by
    unfold appendSelfLoop at h
    simp only [Option.bind_eq_bind, Option.bind_eq_some_iff] at h
    obtain ⟨w, _, v, _, ws1, h1, v2, _, ws2, h2, h3⟩ := h
    have e1 := orCur_length h1
    have e2 := wr_length h2
    have e3 : c + 1 < ws1.length := by
      unfold wr at h2; split at h2
      · assumption
      · cases h2
    rcases appendSelfLoop_bound n (i+1) ws2 (c+1) r h3 with h4 | h4 <;> right <;> omega

theorem appendSelf_oob {b : Builder} {l : List Bool} (h : Inv b l) (hl : 64 ≤ l.length) : appendSelf b = none := by
  have hlen := h.len
  have hs := h.size
  cases e : appendSelf b with
  | none => rfl
  | some r =>
    exfalso
    unfold appendSelf at e
    rw [if_neg (by omega)] at e
    simp only [] at e
    obtain ⟨g, hg, e⟩ := Option.bind_eq_some_iff.1 e
    obtain ⟨hg1, hg2⟩ := Darray.subU_eq_some hg
    unfold wordsFor at hg1 hg2
    by_cases h0 : b.size % 64 = 0
    · rw [if_pos h0] at e
      obtain ⟨_, h1, _⟩ := Option.bind_eq_some_iff.1 e
      unfold assertP at h1
      rw [if_neg (by omega)] at h1
      cases h1
    · rw [if_neg h0] at e
      obtain ⟨c, hc, e⟩ := Option.bind_eq_some_iff.1 e
      obtain ⟨n, hn, e⟩ := Option.bind_eq_some_iff.1 e
      obtain ⟨r2, h2, _⟩ := Option.bind_eq_some_iff.1 e
      obtain ⟨_, hc2⟩ := Darray.subU_eq_some hc
      obtain ⟨_, hn2⟩ := Darray.subU_eq_some hn
      rw [List.length_append, List.length_replicate] at hn2
      have := appendSelfLoop_bound n 0 _ c r2 h2
      rw [List.length_append, List.length_replicate] at this
      omega

theorem appendSelf_short {b : Builder} {l : List Bool} (h : Inv b l) (hl : l.length ≤ 32) : appendSelf b = append b b := by
  have hlen := h.len
  have hs := h.size
  unfold appendSelf append
  by_cases h0 : b.size = 0
  · rw [if_pos h0, if_pos h0]
  · rw [if_neg h0, if_neg h0]
    have h1 : b.bits.length = 1 := by omega
    obtain ⟨w, hw⟩ := List.length_eq_one_iff.1 h1
    have h2 : wordsFor (b.size + b.size) = 1 := by unfold wordsFor; omega
    have h3 : ¬ b.size % 64 = 0 := by omega
    simp only []
    rw [hw, h2, show subU 1 [w].length = some 0 from rfl]
    simp only [Option.bind_eq_bind, Option.bind_some]
    rw [if_neg h3, if_neg h3]
    show (shl w (b.size % 64)).bind _ = (shl w (b.size % 64)).bind _
    cases shl w (b.size % 64) with
    | none => rfl
    | some v =>
      rw [Option.bind_some, Option.bind_some]
      show (orCur [w] (some 0) v).bind _ = (orCur [w] (some 0) v).bind _
      cases e : orCur [w] (some 0) v with
      | none => rfl
      | some ws =>
        have : back ws = some 0 := by unfold back; rw [orCur_length e]; rfl
        simp only [Option.bind_some]
        rw [this]
        rfl

theorem shl_some (w : Word) (k : Nat) (h : k < 64) : shl w k = some (w <<< k) := shl_eq w k h
theorem shr_some (w : Word) (k : Nat) (h : k < 64) : shr w k = some (w >>> k) := shr_eq w k h

/-- both calls for a builder of 33 to 63 bits, word by word -/
theorem appendSelf_mid {b : Builder} {l : List Bool} (h : Inv b l) (h1 : 33 ≤ l.length) (h2 : l.length ≤ 63) :
    ∃ w : Word, b.bits = [w] ∧
      appendSelf b = some ⟨[w ||| w <<< l.length, (w >>> (64 - l.length)) ||| (w >>> (64 - l.length)) <<< l.length], l.length + l.length, some 1⟩ ∧
      append b b = some ⟨[w ||| w <<< l.length, w >>> (64 - l.length)], l.length + l.length, some 1⟩ := by
  have hlen := h.len
  have hs := h.size
  obtain ⟨w, hw⟩ := List.length_eq_one_iff.1 (show b.bits.length = 1 by omega)
  have e2 : wordsFor (l.length + l.length) = 2 := by unfold wordsFor; omega
  refine ⟨w, hw, ?_, ?_⟩
  · unfold appendSelf
    rw [if_neg (by omega), hw, hs]
    simp only []
    rw [e2, show l.length % 64 = l.length by omega, show subU 2 [w].length = some 1 from rfl, bind_pure_some, if_neg (by omega),
      show subU [w].length 1 = some 0 from rfl, bind_pure_some, show [w] ++ List.replicate 1 0 = [w, 0] from rfl,
      show subU [w, 0].length 1 = some 1 from rfl, bind_pure_some]
    unfold appendSelfLoop
    rw [show rd [w, 0] 0 = some w from rfl, bind_pure_some, shl_some _ _ (by omega), bind_pure_some,
      show orCur [w, 0] (some 0) (w <<< l.length) = some [w ||| w <<< l.length, 0] from rfl, bind_pure_some, shr_some _ _ (by omega), bind_pure_some,
      show wr [w ||| w <<< l.length, 0] (0 + 1) (w >>> (64 - l.length)) = some [w ||| w <<< l.length, w >>> (64 - l.length)] from rfl, bind_pure_some]
    unfold appendSelfLoop
    rw [bind_pure_some]
    simp only []
    rw [show [w ||| w <<< l.length, w >>> (64 - l.length)].getLast? = some (w >>> (64 - l.length)) from rfl, bind_pure_some, shl_some _ _ (by omega),
      bind_pure_some, show orCur [w ||| w <<< l.length, w >>> (64 - l.length)] (some (0 + 1)) ((w >>> (64 - l.length)) <<< l.length) =
        some [w ||| w <<< l.length, (w >>> (64 - l.length)) ||| (w >>> (64 - l.length)) <<< l.length] from rfl, bind_pure_some]
    rfl
  · unfold append
    rw [if_neg (by omega), hw, hs]
    simp only []
    rw [e2, show l.length % 64 = l.length by omega, show subU 2 [w].length = some 1 from rfl, bind_pure_some, if_neg (by omega),
      show subU [w].length 1 = some 0 from rfl, bind_pure_some, show [w] ++ List.replicate 1 0 = [w, 0] from rfl, bind_pure_some,
      show [w].dropLast = [] from rfl]
    unfold appendLoop
    rw [bind_pure_some]
    simp only []
    rw [show [w].getLast? = some w from rfl, bind_pure_some, shl_some _ _ (by omega), bind_pure_some,
      show orCur [w, 0] (some 0) (w <<< l.length) = some [w ||| w <<< l.length, 0] from rfl, bind_pure_some,
      show back [w ||| w <<< l.length, 0] = some 1 from rfl, bind_pure_some, if_pos (by omega), shr_some _ _ (by omega), bind_pure_some]
    rfl

end Builder

/-- **C61** where it holds: a builder of at most 32 bits may be appended to itself; the call does exactly what
appending a separate copy would do. -/
theorem C61_self_append_partial (p : Prog) (l : List Bool) (h : p.spec = some l) (hr : p.ReserveAligned) (hl : l.length ≤ 32) :
    ∃ b b', Builder.run p = some b ∧ b.appendSelf = some b' ∧ b.append b = some b' ∧ BitVector.ofBuilder b' = some (BitVector.ofRange (l ++ l)) := by
  obtain ⟨b, e, i⟩ := Builder.run_inv p l h hr
  obtain ⟨b', e', i'⟩ := Builder.append_inv b b l l i i
  obtain ⟨v, ev, hv⟩ := BitVector.ofBuilder_rep b' _ i'
  exact ⟨b, b', e, by rw [Builder.appendSelf_short i hl, e'], e', by rw [ev, BitVector.eq_ofRange hv]⟩

/-- **C61** is false for every builder of 64 or more bits: the call writes beyond the end of the array. -/
theorem C61_self_append_false (p : Prog) (l : List Bool) (h : p.spec = some l) (hr : p.ReserveAligned) (hl : 64 ≤ l.length) :
    ∃ b, Builder.run p = some b ∧ b.appendSelf = none := by
  obtain ⟨b, e, i⟩ := Builder.run_inv p l h hr
  exact ⟨b, e, Builder.appendSelf_oob i hl⟩

/-- **C61** for 33 to 63 bits: the call returns a builder of the right size, and all its bits are right.  It is the builder that appending a
separate copy gives exactly if the bits from `64 - n` to `2 * (64 - n)` are zero, where `n` is the size; otherwise there are ones
behind the end. -/
theorem C61_stray_exact_partial (p : Prog) (l : List Bool) (h : p.spec = some l) (hr : p.ReserveAligned) (h1 : 33 ≤ l.length) (h2 : l.length ≤ 63) :
    ∃ b b' b'' v, Builder.run p = some b ∧ b.appendSelf = some b' ∧ b.append b = some b'' ∧ BitVector.ofBuilder b' = some v ∧
      v.size = l.length + l.length ∧ (∀ q, q < l.length + l.length → v.access q = (l ++ l)[q]?) ∧
      (b' = b'' ↔ ∀ q, 64 - l.length ≤ q → q < 2 * (64 - l.length) → q < l.length → l[q]? = some false) := by
  obtain ⟨b, e, i⟩ := Builder.run_inv p l h hr
  obtain ⟨b'', e'', i''⟩ := Builder.append_inv b b l l i i
  obtain ⟨w, hw, k1, k2⟩ := Builder.appendSelf_mid i h1 h2
  have hbit : ∀ j, j < 64 → w.getLsbD j = bitFn l j := by
    intro j hj
    have := i.repr.bit j
    rw [hw] at this
    simpa [wbit, show j / 64 = 0 by omega, show j % 64 = j by omega] using this
  rw [k2] at e''
  cases e''
  have hlow : ∀ j, j < 2 * l.length - 64 → ((w >>> (64 - l.length)) ||| (w >>> (64 - l.length)) <<< l.length).getLsbD j = (w >>> (64 - l.length)).getLsbD j := by
    intro j hj
    rw [BitVec.getLsbD_or, BitVec.getLsbD_shiftLeft]
    have : j < l.length := by omega
    simp [this]
  have hand : ∀ (x : Word) (k : Nat), (pure (decide (x >>> k &&& 1 ≠ 0)) : Option Bool) = some (x.getLsbD k) := by
    intro x k
    show some _ = some _
    congr 1
    rw [Bool.eq_iff_iff, decide_eq_true_iff, BitVector.and_one_ne, BitVec.getLsbD_ushiftRight, Nat.add_zero]
  refine ⟨b, _, _, ⟨l.length + l.length, [w ||| w <<< l.length, w >>> (64 - l.length) ||| w >>> (64 - l.length) <<< l.length]⟩, e, k1, k2, ?_, rfl, fun q hq => ?_, ?_⟩
  · unfold BitVector.ofBuilder
    rw [assertP_eq _ (by show wordsFor (l.length + l.length) = 2; unfold wordsFor; omega)]; rfl
  · have hb := i''.repr.bit q
    rw [bitFn_getElem? _ _ (by rw [List.length_append]; omega), ← hb]
    unfold BitVector.access
    rw [assertP_eq _ (by exact hq), bind_pure_some]
    simp only []
    rw [assertP_eq _ (by show q / 64 < 2; omega), bind_pure_some]
    by_cases hq1 : q < 64
    · rw [show q / 64 = 0 by omega, show rd [w ||| w <<< l.length, w >>> (64 - l.length) ||| w >>> (64 - l.length) <<< l.length] 0 = some (w ||| w <<< l.length) from rfl,
        bind_pure_some, shr_eq _ _ (by omega), bind_pure_some, hand]
      simp [wbit, show q / 64 = 0 by omega]
    · rw [show q / 64 = 1 by omega, show rd [w ||| w <<< l.length, w >>> (64 - l.length) ||| w >>> (64 - l.length) <<< l.length] 1 = some (w >>> (64 - l.length) ||| w >>> (64 - l.length) <<< l.length) from rfl,
        bind_pure_some, shr_eq _ _ (by omega), bind_pure_some, hand, hlow _ (by omega)]
      simp [wbit, show q / 64 = 1 by omega]
  · have hv : ∀ j, (w >>> (64 - l.length)).getLsbD j = w.getLsbD (64 - l.length + j) := fun j => BitVec.getLsbD_ushiftRight _ _ _
    rw [Builder.mk.injEq, List.cons.injEq, List.cons.injEq]
    constructor
    · rintro ⟨⟨_, heq, _⟩, _⟩ q q1 q2 q3
      have := congrArg (fun x => x.getLsbD (l.length + (q - (64 - l.length)))) heq
      simp only [BitVec.getLsbD_or, BitVec.getLsbD_shiftLeft, hv] at this
      rw [show l.length + (q - (64 - l.length)) - l.length = q - (64 - l.length) by omega,
        show 64 - l.length + (q - (64 - l.length)) = q by omega, BitVec.getLsbD_of_ge w (64 - l.length + _) (by omega)] at this
      have hlt : l.length + (q - (64 - l.length)) < 64 := by omega
      simp only [hlt, decide_true, Bool.true_and, Bool.false_or, Nat.not_lt.2 (Nat.le_add_right _ _), decide_false, Bool.not_false] at this
      rw [bitFn_getElem? _ _ q3, ← hbit q (by omega), this]
    · intro hz
      refine ⟨⟨rfl, ?_, rfl⟩, rfl, rfl⟩
      apply BitVec.eq_of_getLsbD_eq
      intro j hj
      rw [BitVec.getLsbD_or, BitVec.getLsbD_shiftLeft]
      by_cases hjl : j < l.length
      · simp [hjl]
      · have : (w >>> (64 - l.length)).getLsbD (j - l.length) = false := by
          rw [hv, hbit _ (by omega)]
          by_cases hq : 64 - l.length + (j - l.length) < l.length
          · have := hz _ (by omega) (by omega) hq
            rw [bitFn_getElem? _ _ hq] at this
            simpa using this
          · exact bitFn_of_ge _ _ (by omega)
        rw [this]; simp

/-- the condition can hold and fail: a builder of 40 zeros, a builder of 40 ones -/
example : (∀ q, 64 - 40 ≤ q → q < 2 * (64 - 40) → q < 40 → (List.replicate 40 false)[q]? = some false) ∧
    ¬ (∀ q, 64 - 40 ≤ q → q < 2 * (64 - 40) → q < 40 → (List.replicate 40 true)[q]? = some false) :=
  ⟨fun q _ _ h => by rw [List.getElem?_replicate, if_pos h], fun h => by have := h 24 (by omega) (by omega) (by omega); simp at this⟩

/-- Between 33 and 63 bits the call returns, but leaves stray bits behind the end: 40 ones appended to themselves,
then 40 zeros: bit 104 reads as one (a separate copy gives zero). -/
theorem C61_stray_false :
    ((Builder.new 40 true).bind fun b => b.appendSelf.bind fun b => (b.zeroExtend 40).bind fun b => (BitVector.ofBuilder b).bind fun v => v.access 104) = some true ∧
    ((Builder.new 40 true).bind fun b => (b.append b).bind fun b => (b.zeroExtend 40).bind fun b => (BitVector.ofBuilder b).bind fun v => v.access 104) = some false :=
  ⟨by decide +kernel, by decide +kernel⟩

example : (Prog.pushBack (.new 3 true) false).spec = some [true, true, true, false] := rfl

end Succinct
