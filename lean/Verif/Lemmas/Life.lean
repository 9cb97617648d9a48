import Verif.Model.Life

namespace Succinct

/-- the laws of a data member -/
structure Field.Ok {T F : Type} (f : Field T F) : Prop where
  gs : ∀ t x, f.get (f.set t x) = x
  sg : ∀ t, f.set t (f.get t) = t
  ss : ∀ t x y, f.set (f.set t x) y = f.set t y

theorem Field.whole_ok {T : Type} : (Field.whole : Field T T).Ok := ⟨fun _ _ => rfl, fun _ => rfl, fun _ _ _ => rfl⟩

theorem Field.sub_ok {T F G : Type} {f : Field T F} {g : Field F G} (hf : f.Ok) (hg : g.Ok) : (f.sub g).Ok where
  gs t x := by simp only [Field.sub, hf.gs, hg.gs]
  sg t := by simp only [Field.sub, hg.sg, hf.sg]
  ss t x y := by simp only [Field.sub, hf.gs, hg.ss, hf.ss]

theorem stdSwap_eq {T F : Type} {f : Field T F} (hf : f.Ok) (s : Objs T) (i j : Nat) :
    stdSwap f s i j = fun k => if k = i then f.set (s i) (f.get (s j)) else if k = j then f.set (s j) (f.get (s i)) else s k := by
  funext k
  unfold stdSwap Objs.put
  by_cases h1 : k = i <;> by_cases h2 : k = j <;> by_cases h3 : j = i <;> simp_all [hf.ss, hf.sg]

theorem stdSwap_comm {T F : Type} {f : Field T F} (hf : f.Ok) (s : Objs T) (i j : Nat) : stdSwap f s i j = stdSwap f s j i := by
  rw [stdSwap_eq hf, stdSwap_eq hf]
  funext k
  by_cases h1 : k = i <;> by_cases h2 : k = j <;> simp_all

theorem stdSwap_whole {T : Type} (s : Objs T) (i j : Nat) : stdSwap .whole s i j = fun k => if k = i then s j else if k = j then s i else s k := by
  rw [stdSwap_eq Field.whole_ok]; rfl

theorem Builder.swap_eq {T : Type} {f : Field T Builder} (hf : f.Ok) (s : Objs T) (i j : Nat) : Builder.swap f s i j = stdSwap f s i j := by
  unfold Builder.swap
  simp only []
  have h0 : (f.sub ⟨Builder.bits, fun b x => { b with bits := x }⟩).Ok := Field.sub_ok hf ⟨fun _ _ => rfl, fun _ => rfl, fun _ _ _ => rfl⟩
  have h1 : (f.sub ⟨Builder.size, fun b x => { b with size := x }⟩).Ok := Field.sub_ok hf ⟨fun _ _ => rfl, fun _ => rfl, fun _ _ _ => rfl⟩
  have h2 : (f.sub ⟨Builder.cur, fun b x => { b with cur := x }⟩).Ok := Field.sub_ok hf ⟨fun _ _ => rfl, fun _ => rfl, fun _ _ _ => rfl⟩
  rw [stdSwap_eq h0, stdSwap_eq h1, stdSwap_eq h2, stdSwap_eq hf]
  funext k
  by_cases e3 : j = i
  · subst e3
    by_cases e1 : k = j <;> simp [Field.sub, hf.gs, hf.ss, hf.sg, e1]
  · have e4 : ¬ i = j := fun h => e3 h.symm
    by_cases e1 : k = i
    · simp [Field.sub, hf.gs, hf.ss, hf.sg, e1, e3, e4]
    · by_cases e2 : k = j
      · simp [Field.sub, hf.gs, hf.ss, hf.sg, e2, e3, e4]
      · simp [e1, e2]

theorem BitVector.swap_eq {T : Type} {f : Field T BitVector} (hf : f.Ok) (s : Objs T) (i j : Nat) : BitVector.swap f s i j = stdSwap f s i j := by
  unfold BitVector.swap
  simp only []
  have h0 : (f.sub ⟨BitVector.size, fun b x => { b with size := x }⟩).Ok := Field.sub_ok hf ⟨fun _ _ => rfl, fun _ => rfl, fun _ _ _ => rfl⟩
  have h1 : (f.sub ⟨BitVector.bits, fun b x => { b with bits := x }⟩).Ok := Field.sub_ok hf ⟨fun _ _ => rfl, fun _ => rfl, fun _ _ _ => rfl⟩
  rw [stdSwap_eq h0, stdSwap_eq h1, stdSwap_eq hf]
  funext k
  by_cases e3 : j = i
  · subst e3
    by_cases e1 : k = j <;> simp [Field.sub, hf.gs, hf.ss, hf.sg, e1]
  · have e4 : ¬ i = j := fun h => e3 h.symm
    by_cases e1 : k = i
    · simp [Field.sub, hf.gs, hf.ss, hf.sg, e1, e3, e4]
    · by_cases e2 : k = j
      · simp [Field.sub, hf.gs, hf.ss, hf.sg, e2, e3, e4]
      · simp [e1, e2]

theorem RSBitVector.swap_eq {T : Type} {f : Field T RSBitVector} (hf : f.Ok) (s : Objs T) (i j : Nat) : RSBitVector.swap f s i j = stdSwap f s i j := by
  unfold RSBitVector.swap
  simp only []
  have h0 : (f.sub ⟨RSBitVector.bv, fun b x => { b with bv := x }⟩).Ok := Field.sub_ok hf ⟨fun _ _ => rfl, fun _ => rfl, fun _ _ _ => rfl⟩
  have h1 : (f.sub ⟨RSBitVector.pairs, fun b x => { b with pairs := x }⟩).Ok := Field.sub_ok hf ⟨fun _ _ => rfl, fun _ => rfl, fun _ _ _ => rfl⟩
  have h2 : (f.sub ⟨RSBitVector.hints, fun b x => { b with hints := x }⟩).Ok := Field.sub_ok hf ⟨fun _ _ => rfl, fun _ => rfl, fun _ _ _ => rfl⟩
  have h3 : (f.sub ⟨RSBitVector.hints0, fun b x => { b with hints0 := x }⟩).Ok := Field.sub_ok hf ⟨fun _ _ => rfl, fun _ => rfl, fun _ _ _ => rfl⟩
  rw [BitVector.swap_eq h0]
  rw [stdSwap_eq h0, stdSwap_eq h1, stdSwap_eq h2, stdSwap_eq h3, stdSwap_eq hf]
  funext k
  by_cases e3 : j = i
  · subst e3
    by_cases e1 : k = j <;> simp [Field.sub, hf.gs, hf.ss, hf.sg, e1]
  · have e4 : ¬ i = j := fun h => e3 h.symm
    by_cases e1 : k = i
    · simp [Field.sub, hf.gs, hf.ss, hf.sg, e1, e3, e4]
    · by_cases e2 : k = j
      · simp [Field.sub, hf.gs, hf.ss, hf.sg, e2, e3, e4]
      · simp [e1, e2]

theorem BpVector.swap_eq {T : Type} {f : Field T BpVector} (hf : f.Ok) (s : Objs T) (i j : Nat) : BpVector.swap f s i j = stdSwap f s i j := by
  unfold BpVector.swap
  simp only []
  have h0 : (f.sub ⟨BpVector.rs, fun b x => { b with rs := x }⟩).Ok := Field.sub_ok hf ⟨fun _ _ => rfl, fun _ => rfl, fun _ _ _ => rfl⟩
  have h1 : (f.sub ⟨BpVector.internalNodes, fun b x => { b with internalNodes := x }⟩).Ok := Field.sub_ok hf ⟨fun _ _ => rfl, fun _ => rfl, fun _ _ _ => rfl⟩
  have h2 : (f.sub ⟨BpVector.blockMin, fun b x => { b with blockMin := x }⟩).Ok := Field.sub_ok hf ⟨fun _ _ => rfl, fun _ => rfl, fun _ _ _ => rfl⟩
  have h3 : (f.sub ⟨BpVector.superMin, fun b x => { b with superMin := x }⟩).Ok := Field.sub_ok hf ⟨fun _ _ => rfl, fun _ => rfl, fun _ _ _ => rfl⟩
  rw [RSBitVector.swap_eq h0]
  rw [stdSwap_eq h0, stdSwap_eq h1, stdSwap_eq h2, stdSwap_eq h3, stdSwap_eq hf]
  funext k
  by_cases e3 : j = i
  · subst e3
    by_cases e1 : k = j <;> simp [Field.sub, hf.gs, hf.ss, hf.sg, e1]
  · have e4 : ¬ i = j := fun h => e3 h.symm
    by_cases e1 : k = i
    · simp [Field.sub, hf.gs, hf.ss, hf.sg, e1, e3, e4]
    · by_cases e2 : k = j
      · simp [Field.sub, hf.gs, hf.ss, hf.sg, e2, e3, e4]
      · simp [e1, e2]

theorem Darray.swap_eq {T : Type} {f : Field T Darray} (hf : f.Ok) (s : Objs T) (i j : Nat) : Darray.swap f s i j = stdSwap f s i j := by
  unfold Darray.swap
  simp only []
  have h0 : (f.sub ⟨Darray.positions, fun b x => { b with positions := x }⟩).Ok := Field.sub_ok hf ⟨fun _ _ => rfl, fun _ => rfl, fun _ _ _ => rfl⟩
  have hg : (f.sub ⟨Darray.inv, fun b x => { b with inv := x }⟩).Ok := Field.sub_ok hf ⟨fun _ _ => rfl, fun _ => rfl, fun _ _ _ => rfl⟩
  have h1 : (Field.sub (f.sub ⟨Darray.inv, fun b x => { b with inv := x }⟩) ⟨DInv.block, fun b x => { b with block := x }⟩).Ok := Field.sub_ok hg ⟨fun _ _ => rfl, fun _ => rfl, fun _ _ _ => rfl⟩
  have h2 : (Field.sub (f.sub ⟨Darray.inv, fun b x => { b with inv := x }⟩) ⟨DInv.subblock, fun b x => { b with subblock := x }⟩).Ok := Field.sub_ok hg ⟨fun _ _ => rfl, fun _ => rfl, fun _ _ _ => rfl⟩
  have h3 : (Field.sub (f.sub ⟨Darray.inv, fun b x => { b with inv := x }⟩) ⟨DInv.overflow, fun b x => { b with overflow := x }⟩).Ok := Field.sub_ok hg ⟨fun _ _ => rfl, fun _ => rfl, fun _ _ _ => rfl⟩
  rw [stdSwap_eq h0, stdSwap_eq h1, stdSwap_eq h2, stdSwap_eq h3, stdSwap_eq hf]
  funext k
  by_cases e3 : j = i
  · subst e3
    by_cases e1 : k = j <;> simp [Field.sub, hf.gs, hf.ss, hf.sg, e1]
  · have e4 : ¬ i = j := fun h => e3 h.symm
    by_cases e1 : k = i
    · simp [Field.sub, hf.gs, hf.ss, hf.sg, e1, e3, e4]
    · by_cases e2 : k = j
      · simp [Field.sub, hf.gs, hf.ss, hf.sg, e2, e3, e4]
      · simp [e1, e2]

theorem Darray64.swap_eq {T : Type} {f : Field T Darray64} (hf : f.Ok) (s : Objs T) (i j : Nat) : Darray64.swap f s i j = stdSwap f s i j := by
  unfold Darray64.swap
  simp only []
  have h0 : (f.sub ⟨Darray64.numOnes, fun b x => { b with numOnes := x }⟩).Ok := Field.sub_ok hf ⟨fun _ _ => rfl, fun _ => rfl, fun _ _ _ => rfl⟩
  have h1 : (f.sub ⟨Darray64.bits, fun b x => { b with bits := x }⟩).Ok := Field.sub_ok hf ⟨fun _ _ => rfl, fun _ => rfl, fun _ _ _ => rfl⟩
  have h2 : (f.sub ⟨Darray64.block, fun b x => { b with block := x }⟩).Ok := Field.sub_ok hf ⟨fun _ _ => rfl, fun _ => rfl, fun _ _ _ => rfl⟩
  have h3 : (f.sub ⟨Darray64.subblock, fun b x => { b with subblock := x }⟩).Ok := Field.sub_ok hf ⟨fun _ _ => rfl, fun _ => rfl, fun _ _ _ => rfl⟩
  rw [BitVector.swap_eq h1]
  rw [stdSwap_eq h0, stdSwap_eq h1, stdSwap_eq h2, stdSwap_eq h3, stdSwap_eq hf]
  funext k
  by_cases e3 : j = i
  · subst e3
    by_cases e1 : k = j <;> simp [Field.sub, hf.gs, hf.ss, hf.sg, e1]
  · have e4 : ¬ i = j := fun h => e3 h.symm
    by_cases e1 : k = i
    · simp [Field.sub, hf.gs, hf.ss, hf.sg, e1, e3, e4]
    · by_cases e2 : k = j
      · simp [Field.sub, hf.gs, hf.ss, hf.sg, e2, e3, e4]
      · simp [e1, e2]

theorem EliasFano.swap_eq {T : Type} {f : Field T EliasFano} (hf : f.Ok) (s : Objs T) (i j : Nat) : EliasFano.swap f s i j = stdSwap f s i j := by
  unfold EliasFano.swap
  simp only []
  have h0 : (f.sub ⟨EliasFano.size, fun b x => { b with size := x }⟩).Ok := Field.sub_ok hf ⟨fun _ _ => rfl, fun _ => rfl, fun _ _ _ => rfl⟩
  have h1 : (f.sub ⟨EliasFano.high, fun b x => { b with high := x }⟩).Ok := Field.sub_ok hf ⟨fun _ _ => rfl, fun _ => rfl, fun _ _ _ => rfl⟩
  have h2 : (f.sub ⟨EliasFano.d1, fun b x => { b with d1 := x }⟩).Ok := Field.sub_ok hf ⟨fun _ _ => rfl, fun _ => rfl, fun _ _ _ => rfl⟩
  have h3 : (f.sub ⟨EliasFano.d0, fun b x => { b with d0 := x }⟩).Ok := Field.sub_ok hf ⟨fun _ _ => rfl, fun _ => rfl, fun _ _ _ => rfl⟩
  have h4 : (f.sub ⟨EliasFano.low, fun b x => { b with low := x }⟩).Ok := Field.sub_ok hf ⟨fun _ _ => rfl, fun _ => rfl, fun _ _ _ => rfl⟩
  have h5 : (f.sub ⟨EliasFano.l, fun b x => { b with l := x }⟩).Ok := Field.sub_ok hf ⟨fun _ _ => rfl, fun _ => rfl, fun _ _ _ => rfl⟩
  rw [BitVector.swap_eq h1, Darray.swap_eq h2, Darray.swap_eq h3, BitVector.swap_eq h4]
  rw [stdSwap_eq h0, stdSwap_eq h1, stdSwap_eq h2, stdSwap_eq h3, stdSwap_eq h4, stdSwap_eq h5, stdSwap_eq hf]
  funext k
  by_cases e3 : j = i
  · subst e3
    by_cases e1 : k = j <;> simp [Field.sub, hf.gs, hf.ss, hf.sg, e1]
  · have e4 : ¬ i = j := fun h => e3 h.symm
    by_cases e1 : k = i
    · simp [Field.sub, hf.gs, hf.ss, hf.sg, e1, e3, e4]
    · by_cases e2 : k = j
      · simp [Field.sub, hf.gs, hf.ss, hf.sg, e2, e3, e4]
      · simp [e1, e2]

theorem EFList.swap_eq {T : Type} {f : Field T EFList} (hf : f.Ok) (s : Objs T) (i j : Nat) : EFList.swap f s i j = stdSwap f s i j := by
  unfold EFList.swap
  have h0 : (f.sub ⟨EFList.ef, fun b x => { b with ef := x }⟩).Ok := Field.sub_ok hf ⟨fun _ _ => rfl, fun _ => rfl, fun _ _ _ => rfl⟩
  rw [EliasFano.swap_eq h0]
  rw [stdSwap_eq h0, stdSwap_eq hf]
  funext k
  by_cases e3 : j = i
  · subst e3
    by_cases e1 : k = j <;> simp [Field.sub, hf.gs, hf.ss, hf.sg, e1]
  · have e4 : ¬ i = j := fun h => e3 h.symm
    by_cases e1 : k = i
    · simp [Field.sub, hf.gs, hf.ss, hf.sg, e1, e3, e4]
    · by_cases e2 : k = j
      · simp [Field.sub, hf.gs, hf.ss, hf.sg, e2, e3, e4]
      · simp [e1, e2]

theorem EFCompressedList.swap_eq {T : Type} {f : Field T EFCompressedList} (hf : f.Ok) (s : Objs T) (i j : Nat) : EFCompressedList.swap f s i j = stdSwap f s i j := by
  unfold EFCompressedList.swap
  simp only []
  have h0 : (f.sub ⟨EFCompressedList.ef, fun b x => { b with ef := x }⟩).Ok := Field.sub_ok hf ⟨fun _ _ => rfl, fun _ => rfl, fun _ _ _ => rfl⟩
  have h1 : (f.sub ⟨EFCompressedList.bits, fun b x => { b with bits := x }⟩).Ok := Field.sub_ok hf ⟨fun _ _ => rfl, fun _ => rfl, fun _ _ _ => rfl⟩
  rw [EliasFano.swap_eq h0, BitVector.swap_eq h1]
  rw [stdSwap_eq h0, stdSwap_eq h1, stdSwap_eq hf]
  funext k
  by_cases e3 : j = i
  · subst e3
    by_cases e1 : k = j <;> simp [Field.sub, hf.gs, hf.ss, hf.sg, e1]
  · have e4 : ¬ i = j := fun h => e3 h.symm
    by_cases e1 : k = i
    · simp [Field.sub, hf.gs, hf.ss, hf.sg, e1, e3, e4]
    · by_cases e2 : k = j
      · simp [Field.sub, hf.gs, hf.ss, hf.sg, e2, e3, e4]
      · simp [e1, e2]

theorem GammaVec.swap_eq {T : Type} {f : Field T GammaVec} (hf : f.Ok) (s : Objs T) (i j : Nat) : GammaVec.swap f s i j = stdSwap f s i j := by
  unfold GammaVec.swap
  simp only []
  have h0 : (f.sub ⟨GammaVec.high, fun b x => { b with high := x }⟩).Ok := Field.sub_ok hf ⟨fun _ _ => rfl, fun _ => rfl, fun _ _ _ => rfl⟩
  have h1 : (f.sub ⟨GammaVec.low, fun b x => { b with low := x }⟩).Ok := Field.sub_ok hf ⟨fun _ _ => rfl, fun _ => rfl, fun _ _ _ => rfl⟩
  rw [Darray64.swap_eq h0, BitVector.swap_eq h1]
  rw [stdSwap_eq h0, stdSwap_eq h1, stdSwap_eq hf]
  funext k
  by_cases e3 : j = i
  · subst e3
    by_cases e1 : k = j <;> simp [Field.sub, hf.gs, hf.ss, hf.sg, e1]
  · have e4 : ¬ i = j := fun h => e3 h.symm
    by_cases e1 : k = i
    · simp [Field.sub, hf.gs, hf.ss, hf.sg, e1, e3, e4]
    · by_cases e2 : k = j
      · simp [Field.sub, hf.gs, hf.ss, hf.sg, e2, e3, e4]
      · simp [e1, e2]

theorem CartesianTree.swap_eq {T : Type} {f : Field T CartesianTree} (hf : f.Ok) (s : Objs T) (i j : Nat) : CartesianTree.swap f s i j = stdSwap f s i j := by
  unfold CartesianTree.swap
  have h0 : (f.sub ⟨CartesianTree.bp, fun b x => { b with bp := x }⟩).Ok := Field.sub_ok hf ⟨fun _ _ => rfl, fun _ => rfl, fun _ _ _ => rfl⟩
  rw [BpVector.swap_eq h0]
  rw [stdSwap_eq h0, stdSwap_eq hf]
  funext k
  by_cases e3 : j = i
  · subst e3
    by_cases e1 : k = j <;> simp [Field.sub, hf.gs, hf.ss, hf.sg, e1]
  · have e4 : ¬ i = j := fun h => e3 h.symm
    by_cases e1 : k = i
    · simp [Field.sub, hf.gs, hf.ss, hf.sg, e1, e3, e4]
    · by_cases e2 : k = j
      · simp [Field.sub, hf.gs, hf.ss, hf.sg, e2, e3, e4]
      · simp [e1, e2]

theorem TopK.swap_eq {α : Type} {T : Type} {f : Field T (TopK α)} (hf : f.Ok) (s : Objs T) (i j : Nat) : TopK.swap f s i j = stdSwap f s i j := by
  unfold TopK.swap
  simp only []
  have h0 : (f.sub ⟨TopK.v, fun b x => { b with v := x }⟩).Ok := Field.sub_ok hf ⟨fun _ _ => rfl, fun _ => rfl, fun _ _ _ => rfl⟩
  have h1 : (f.sub ⟨TopK.tree, fun b x => { b with tree := x }⟩).Ok := Field.sub_ok hf ⟨fun _ _ => rfl, fun _ => rfl, fun _ _ _ => rfl⟩
  rw [CartesianTree.swap_eq h1]
  rw [stdSwap_eq h0, stdSwap_eq h1, stdSwap_eq hf]
  funext k
  by_cases e3 : j = i
  · subst e3
    by_cases e1 : k = j <;> simp [Field.sub, hf.gs, hf.ss, hf.sg, e1]
  · have e4 : ¬ i = j := fun h => e3 h.symm
    by_cases e1 : k = i
    · simp [Field.sub, hf.gs, hf.ss, hf.sg, e1, e3, e4]
    · by_cases e2 : k = j
      · simp [Field.sub, hf.gs, hf.ss, hf.sg, e2, e3, e4]
      · simp [e1, e2]

theorem TopKEnum.swap_eq {α : Type} {T : Type} {f : Field T (TopKEnum α)} (hf : f.Ok) (s : Objs T) (i j : Nat) : TopKEnum.swap f s i j = stdSwap f s i j := by
  unfold TopKEnum.swap
  simp only []
  have h0 : (f.sub ⟨TopKEnum.topkv, fun b x => { b with topkv := x }⟩).Ok := Field.sub_ok hf ⟨fun _ _ => rfl, fun _ => rfl, fun _ _ _ => rfl⟩
  have h1 : (f.sub ⟨TopKEnum.q, fun b x => { b with q := x }⟩).Ok := Field.sub_ok hf ⟨fun _ _ => rfl, fun _ => rfl, fun _ _ _ => rfl⟩
  have h2 : (f.sub ⟨TopKEnum.cur, fun b x => { b with cur := x }⟩).Ok := Field.sub_ok hf ⟨fun _ _ => rfl, fun _ => rfl, fun _ _ _ => rfl⟩
  rw [stdSwap_eq h0, stdSwap_eq h1, stdSwap_eq h2, stdSwap_eq hf]
  funext k
  by_cases e3 : j = i
  · subst e3
    by_cases e1 : k = j <;> simp [Field.sub, hf.gs, hf.ss, hf.sg, e1]
  · have e4 : ¬ i = j := fun h => e3 h.symm
    by_cases e1 : k = i
    · simp [Field.sub, hf.gs, hf.ss, hf.sg, e1, e3, e4]
    · by_cases e2 : k = j
      · simp [Field.sub, hf.gs, hf.ss, hf.sg, e2, e3, e4]
      · simp [e1, e2]

theorem NibbleVector.swap_eq {T : Type} {f : Field T NibbleVector} (hf : f.Ok) (s : Objs T) (i j : Nat) : NibbleVector.swap f s i j = stdSwap f s i j := by
  unfold NibbleVector.swap
  simp only []
  have h0 : (f.sub ⟨NibbleVector.size, fun b x => { b with size := x }⟩).Ok := Field.sub_ok hf ⟨fun _ _ => rfl, fun _ => rfl, fun _ _ _ => rfl⟩
  have h1 : (f.sub ⟨NibbleVector.nibbles, fun b x => { b with nibbles := x }⟩).Ok := Field.sub_ok hf ⟨fun _ _ => rfl, fun _ => rfl, fun _ _ _ => rfl⟩
  rw [stdSwap_eq h0, stdSwap_eq h1, stdSwap_eq hf]
  funext k
  by_cases e3 : j = i
  · subst e3
    by_cases e1 : k = j <;> simp [Field.sub, hf.gs, hf.ss, hf.sg, e1]
  · have e4 : ¬ i = j := fun h => e3 h.symm
    by_cases e1 : k = i
    · simp [Field.sub, hf.gs, hf.ss, hf.sg, e1, e3, e4]
    · by_cases e2 : k = j
      · simp [Field.sub, hf.gs, hf.ss, hf.sg, e2, e3, e4]
      · simp [e1, e2]

end Succinct
