import Verif.Lemmas.TestPass
import Verif.Lemmas.TestCart
import Verif.Props.RSBitVector
import Verif.Props.Darray
import Verif.Props.EliasFano
import Verif.Props.Gamma
import Verif.Props.BpVector
import Verif.Props.CartesianTree
import Verif.Props.TopKOver

/-! # The drivers of the other structures on the objects of the library -/
namespace Succinct
namespace Test
open Spec
open RSBitVector (bind_pure_some)

theorem isSelect1_of {v : List Bool} {i : Nat} (h : v[i]? = some true) : IsSelect1 v ((v.take i).count true) i := ⟨h, rfl⟩

theorem isSelect0_of {v : List Bool} {i : Nat} (h : v[i]? = some false) : IsSelect0 v ((v.take i).count false) i := ⟨h, rfl⟩

theorem count_lt {b : Bool} {v : List Bool} {i : Nat} (h : v[i]? = some b) : (v.take i).count b < v.count b := by
  obtain ⟨hi, e⟩ := List.getElem?_eq_some_iff.1 h
  have : v.take (i+1) = v.take i ++ [b] := by rw [List.take_add_one, h]; rfl
  have h1 : (v.take (i+1)).count b = (v.take i).count b + 1 := by rw [this]; simp
  have h2 : (v.take (i+1)).count b ≤ v.count b := (List.take_sublist _ _).count_le _
  omega

theorem rsBitVector_ok (v : List Bool) (a b : Bool) : rsBitVector v a b = some () := by
  obtain ⟨t, e, h1, h2, h3, _⟩ := C14_rank v a b
  obtain ⟨t1, e1, g1, _⟩ := C15_select v a b
  obtain ⟨t2, e2, g2, _⟩ := C16_select0 v a b
  obtain ⟨t3, e3, g3, _⟩ := RSBitVector.build_inv v a b
  rw [e] at e1 e2 e3
  cases e1; cases e2; cases e3
  unfold rsBitVector
  rw [e, bind_pure_some, g3, rep_equal (BitVector.ofRange_rep v), bind_pure_some,
    (rankSelect_iff false v _).2 ⟨fun i hi => (h3 i (by omega)).2, fun i hi => ?_, fun i q hi hq => ?_, fun i q hi hq => ?_⟩, bind_pure_some,
    (rankSelect_iff true v _).2 ⟨fun i hi => (h3 i (by omega)).1, fun i hi => ?_, fun i q hi hq => ?_, fun i q hi hq => ?_⟩]
  · obtain ⟨p, p1, p2⟩ := g1 _ (count_lt hi)
    exact p1.trans (by rw [isSelect1_unique (isSelect1_of hi) p2])
  · show t.bv.predecessor1 i = _
    rw [g3]; exact ((C05_predecessor true v i hi).1 q).2 hq
  · show t.bv.successor1 i = _
    rw [g3]; exact C06_successor true v i q hi hq
  · obtain ⟨p, p1, p2⟩ := g2 _ (count_lt hi)
    exact p1.trans (by rw [isSelect0_unique (isSelect0_of hi) p2])
  · show t.bv.predecessor0 i = _
    rw [g3]; exact ((C05_predecessor false v i hi).1 q).2 hq
  · show t.bv.successor0 i = _
    rw [g3]; exact C06_successor false v i q hi hq

theorem darray_ok (v : List Bool) : darray v = some () := by
  obtain ⟨d1, e1, p1, s1, _⟩ := C18_darray1 v
  obtain ⟨d0, e0, p0, s0, _⟩ := C18_darray0 v
  unfold darray
  dsimp only
  rw [e1, bind_pure_some, e0, bind_pure_some]
  obtain ⟨s, e, h⟩ := forUp_inv (f := fun i (s : Nat × Nat) => do
      let x ← rd v i
      if x then do
        let q ← d1.select false (BitVector.ofRange v) s.1
        assertP (i = q)
        pure (s.1 + 1, s.2)
      else do
        let q ← d0.select true (BitVector.ofRange v) s.2
        assertP (i = q)
        pure (s.1, s.2 + 1)) (fun i s => s = ((v.take i).count true, (v.take i).count false)) v.length 0 (0, 0) (by simp) (by
    intro j s _ hj hs
    subst hs
    have hj : j < v.length := by omega
    have ht : v.take (j+1) = v.take j ++ [v[j]] := by rw [List.take_add_one, List.getElem?_eq_getElem hj]; rfl
    refine ⟨_, ?_, rfl⟩
    show (v[j]? >>= _) = _
    cases hb : v[j] with
    | true =>
      have hb' : v[j]? = some true := by rw [List.getElem?_eq_getElem hj, hb]
      obtain ⟨p, g1, g2⟩ := s1 _ (count_lt hb')
      rw [hb', bind_pure_some, if_pos rfl, g1, bind_pure_some, assertP_eq _ (isSelect1_unique (isSelect1_of hb') g2), bind_pure_some, ht, hb]
      simp [pure]
    | false =>
      have hb' : v[j]? = some false := by rw [List.getElem?_eq_getElem hj, hb]
      obtain ⟨p, g1, g2⟩ := s0 _ (count_lt hb')
      rw [hb', bind_pure_some, if_neg (by simp), g1, bind_pure_some, assertP_eq _ (isSelect0_unique (isSelect0_of hb') g2), bind_pure_some, ht, hb]
      simp [pure])
  rw [Nat.zero_add, List.take_length] at h
  subst h
  rw [e, bind_pure_some, assertP_eq _ p1.symm, bind_pure_some, assertP_eq _ p0.symm]

theorem gammaVector_ok (ov : Word → Nat → Word) (v : List Word) (hv : ∀ x ∈ v, x ≠ BitVec.allOnes 64) : gammaVector ov v = some () := by
  obtain ⟨g, e, h1, h2⟩ := C28_gamma_vector v hv
  unfold gammaVector
  rw [e, bind_pure_some]
  exact (container_iff _ _ _).2 ⟨h1, h2 ov⟩

theorem gammaBitVector_ok (ov : Word → Nat → Word) (v : List Word) (hv : ∀ x ∈ v, x.toNat < 2^64 - 2) : gammaBitVector ov v = some () := by
  obtain ⟨g, e, h1, h2⟩ := C29_gamma_bit_vector v hv
  unfold gammaBitVector
  rw [e, bind_pure_some]
  exact (container_iff _ _ _).2 ⟨h1, h2 ov⟩

theorem compressedList_ok (ov : Word → Nat → Word) (v : List Word) (hv : ∀ x ∈ v, x ≠ BitVec.allOnes 64) (hl : v.length < 2^57) :
    compressedList ov v = some () := by
  obtain ⟨g, e, h1, h2⟩ := C27_compressed_list v hv hl
  unfold compressedList
  rw [e, bind_pure_some]
  exact (container_iff _ _ _).2 ⟨h1, h2 ov⟩

theorem gammaVectorEnum_ok (rand : Nat → Nat) (v : List Word) (hv : ∀ x ∈ v, x ≠ BitVec.allOnes 64) : gammaVectorEnum rand v = some () := by
  obtain ⟨g, e, h⟩ := GammaVector.build_good v hv
  have hend : (GammaVector.enumNew g v.length).isSome = true := by
    unfold GammaVector.enumNew
    rw [h.size_eq, bind_pure_some, if_neg (by omega)]; rfl
  have h0 : ∃ e0, GammaVector.enumNew g 0 = some e0 := by
    by_cases hl : 0 < v.length
    · obtain ⟨en, e1, _⟩ := GammaVector.enumNew_ok h 0 hl
      exact ⟨en, e1⟩
    · rw [show 0 = v.length from by omega]
      exact Option.isSome_iff_exists.1 hend
  obtain ⟨e0, k0⟩ := h0
  unfold gammaVectorEnum
  rw [e, bind_pure_some, k0, bind_pure_some, h.size_eq, bind_pure_some]
  refine jumps_ok _ _ rand v (fun i hi => ?_) hend _ _ _ _ k0 (by omega) (by omega)
  obtain ⟨en, e1, g1⟩ := GammaVector.enumNew_ok h i hi
  obtain ⟨e', e2, _⟩ := GammaVector.enumNext_ok h i hi en g1
  exact ⟨_, _, _, e1, e2, List.getElem?_eq_getElem hi⟩

theorem gammaBitVectorEnum_ok (rand : Nat → Nat) (v : List Word) (hv : ∀ x ∈ v, x.toNat < 2^64 - 2) : gammaBitVectorEnum rand v = some () := by
  obtain ⟨g, e, h, hp⟩ := GammaBitVector.build_good v hv
  have hend : (GammaBitVector.enumNew g v.length).isSome = true := by
    unfold GammaBitVector.enumNew
    rw [h.size_eq, bind_pure_some, if_neg (by omega)]; rfl
  have h0 : ∃ e0, GammaBitVector.enumNew g 0 = some e0 := by
    by_cases hl : 0 < v.length
    · obtain ⟨en, e1, _⟩ := GammaBitVector.enumNew_ok h hp 0 hl
      exact ⟨en, e1⟩
    · rw [show 0 = v.length from by omega]
      exact Option.isSome_iff_exists.1 hend
  obtain ⟨e0, k0⟩ := h0
  unfold gammaBitVectorEnum
  rw [e, bind_pure_some, k0, bind_pure_some, h.size_eq, bind_pure_some]
  refine jumps_ok _ _ rand v (fun i hi => ?_) hend _ _ _ _ k0 (by omega) (by omega)
  obtain ⟨en, e1, g1⟩ := GammaBitVector.enumNew_ok h hp i hi
  obtain ⟨e', e2, _⟩ := GammaBitVector.enumNext_ok h hp i hi en g1
  exact ⟨_, _, _, e1, e2, List.getElem?_eq_getElem hi⟩

/-! ## `bp_vector`, `cartesian_tree` and `topk_vector` -/

theorem bpVector_ok (ov : Word → Nat → Word) (v : List Bool) (hb : Bal v) (hl : v.length < 2^31) : bpVector ov v = some () := by
  obtain ⟨t, e, g, _⟩ := BpVector.build_inv v false false ((Bal.dyck hb).good hl)
  obtain ⟨t1, e1, h1⟩ := C31_find_close ov v false false hb hl
  obtain ⟨t2, e2, h2, _⟩ := C32_find_open ov v false false hb hl
  obtain ⟨t3, e3, h3⟩ := C33_enclose ov v false false hb hl
  rw [e] at e1 e2 e3
  cases Option.some.inj e1; cases Option.some.inj e2; cases Option.some.inj e3
  unfold bpVector
  rw [e, bind_pure_some]
  have hm : ∀ i j, Matching v i j → v[i]? = some true ∧ v[j]? = some false := by
    intro i j h
    exact ⟨h.2.1, h.2.2.1⟩
  refine (parentheses_iff v _).2 ⟨hb, ?_, fun i j h _ => ?_, fun i j h _ => ?_, fun i j p h hp _ => ?_⟩
  · show t.rs.bv.size ≤ _
    rw [g, (BitVector.ofRange_rep v).size]
  · obtain ⟨j', a, b⟩ := h1 i (hm i j h).1
    exact a.trans (by rw [matching_unique_close h b])
  · obtain ⟨j', a, b⟩ := h2 j (hm i j h).2
    exact a.trans (by rw [matching_unique_open h b])
  · obtain ⟨q, k1, k2, k3, _⟩ := id hp
    obtain ⟨p', a, b⟩ := h3 i j h ⟨p, q, k1, k2, by have := h.1; omega⟩
    exact a.trans (by rw [isEnclose_unique hp b])

theorem bpRmq_ok (rand : Nat → Nat) (v : List Bool) (hb : Bal v) (hl : v.length < 2^31) : bpRmq rand v = some () := by
  obtain ⟨t, e, g, _⟩ := BpVector.build_inv v false false ((Bal.dyck hb).good hl)
  obtain ⟨t1, e1, h1⟩ := C35_excess_rmq v false false hb hl
  rw [e] at e1
  cases Option.some.inj e1
  unfold bpRmq
  rw [e, bind_pure_some]
  have hrep := BitVector.ofRange_rep v
  refine (rmq_iff v (bpRmqOps t) (fun p e => Enum.Weak v e p) ⟨fun a _ => .inl (Enum.new_good a), fun p en hw hp => ?_⟩
    (fun p hp => C34_excess v false false hl t e p hp) hl).2 ?_ rand
  · obtain ⟨e', k1, k2⟩ := Enum.next_good hrep en p hw hp
    refine ⟨_, e', ?_, bitFn_getElem? v p hp, .inl k2⟩
    show Enum.next t.rs.bv en = _
    rw [g, k1]
  · refine .inr ⟨?_, fun a b hab hb => ?_⟩
    · obtain ⟨p, k1, k2⟩ := h1 v.length v.length (by omega) (by omega)
      have : p = v.length := by have := k2.1; have := k2.2.1; omega
      subst this
      exact ⟨_, k1⟩
    · obtain ⟨p, k1, k2⟩ := h1 a b hab (by omega)
      exact ⟨p, _, k1, k2⟩

theorem cartesianTree_ok {α : Type} (comp : α → α → Bool) (ho : StrictWeak comp) (rand : Nat → Nat) (v : List α) (h1 : v.length ≠ 1)
    (hl : v.length < 2^30 - 1) : cartesianTree comp rand v = some () := by
  obtain ⟨t, e, h2⟩ := C36_rmq comp ho v hl
  obtain ⟨t', l, e', _, _, _, h3⟩ := C37_size comp v hl
  rw [e] at e'
  cases Option.some.inj e'
  unfold cartesianTree
  rw [e, bind_pure_some, h3, bind_pure_some]
  refine (cartesian_iff comp ho v _ _).2 ⟨rfl, ?_⟩ rand
  by_cases hv : v = []
  · exact .inl hv
  · exact .inr ⟨by have := List.length_pos_iff.2 hv; omega, h2⟩

theorem topkVector_ok (ov : Word → Nat → Word) (h : HeapOps (QElem Word)) (hh : h.Valid (viComp wordOps))
    {sort : List (Word × Nat) → List (Word × Nat)} (hs : SortOk viLess sort) (rand : Nat → Nat) (v : List Word)
    (hv : ∀ x ∈ v, x ≠ BitVec.allOnes 64) (hl : v.length < 2^30 - 1) : topkVector ov h sort rand v = some () := by
  obtain ⟨t, ⟨e, h1, _, h2⟩, _⟩ := C79_compressed_list h hh v hl ov hv
  unfold topkVector
  dsimp only
  rw [show TopKOver.build (Container.efCompressedList ov) (fun a b => decide (a < b)) id v = some t from e, bind_pure_some, h1, bind_pure_some]
  refine (topk_iff hs v _ _).2 ⟨rfl, fun a b hab hb => ?_⟩ rand
  obtain ⟨s, s1, _, s3, _⟩ := h2 a b hab hb
  rw [s3, C38_unique wordOps wordOps_total v a b s _ s1 (sort_ranking hs v a b)]

/-! ## `elias_fano` -/

theorem pull_run {ef : EliasFano} {n : Word} {xs : List Word} {hb : List Bool} (h : EliasFano.Good ef n xs hb) : ∀ (k i : Nat), i + k ≤ xs.length →
    ∀ e, EliasFano.SelEnum.Ok ef xs hb e i → pull (EliasFano.SelEnum.next ef) k e = some ((xs.drop i).take k)
  | 0, i, _, e, _ => by simp [pull]
  | k+1, i, hi, e, ho => by
    obtain ⟨e', e1, g1⟩ := EliasFano.SelEnum.next_ok h e i (by omega) ho
    unfold pull
    rw [e1, bind_pure_some]
    dsimp only
    rw [pull_run h k (i+1) (by omega) e' g1, bind_pure_some, List.drop_eq_getElem_cons (by omega : i < xs.length), List.take_succ_cons]
    rfl

/-- the history of `push_back` calls of the driver -/
def pushes (v : List Bool) (p : Prog) : Prog := v.foldl .pushBack p

theorem pushes_run : ∀ (v : List Bool) (p : Prog), Builder.run (pushes v p) = (Builder.run p >>= v.foldlM Builder.pushBack)
  | [], p => by
    show Builder.run p = _
    cases Builder.run p <;> rfl
  | x :: v, p => by
    show Builder.run (pushes v (.pushBack p x)) = _
    rw [pushes_run v]
    simp only [Builder.run]
    cases Builder.run p with
    | none => rfl
    | some b => rfl

theorem pushes_spec : ∀ (v : List Bool) (p : Prog) (l : List Bool), p.spec = some l → (pushes v p).spec = some (l ++ v)
  | [], p, l, h => by simpa [pushes] using h
  | x :: v, p, l, h => by
    show (pushes v (.pushBack p x)).spec = _
    rw [pushes_spec v _ (l ++ [x]) (by simp [Prog.spec, h])]
    simp

theorem pushes_aligned : ∀ (v : List Bool) (p : Prog), p.ReserveAligned → (pushes v p).ReserveAligned
  | [], p, h => h
  | x :: v, p, h => pushes_aligned v (.pushBack p x) h

theorem onesW_ones (v : List Bool) (hl : v.length < 2^64) : (EliasFano.onesW v).map BitVec.toNat = ones v := by
  rw [ones_eq]
  unfold EliasFano.onesW
  rw [List.map_map]
  refine (List.map_congr_left (g := id) fun p hp => ?_).trans (List.map_id _)
  unfold onesIn at hp
  have := (List.mem_range'_1.1 (List.mem_filter.1 hp).1).2
  show (BitVec.ofNat 64 p).toNat = p
  rw [BitVec.toNat_ofNat, Nat.mod_eq_of_lt (by omega)]

theorem eliasFano_ok (ov : Word → Nat → Word) (v : List Bool) (hl : v.length < 2^62) : eliasFano ov v = some () := by
  obtain ⟨b0, b, e0, e, hi⟩ := built v
  obtain ⟨ef, hb, e1, g, _⟩ := EliasFano.ofBitmap_good b v hi hl true
  obtain ⟨ef', e2, h1, h2, h3⟩ := C25_bitmap (pushes v (.new 0 false)) v (by rw [pushes_spec v _ [] rfl]; rfl) (pushes_aligned v _ trivial) hl
  rw [pushes_run, show Builder.run (.new 0 false) = Builder.new 0 false from rfl, e0, bind_pure_some, e, Option.bind_some, e1] at e2
  cases Option.some.inj e2
  obtain ⟨a1, a2, a3, a4, a5⟩ := h3 ov
  have hx := EliasFano.onesW_length v
  have hno : ef.numOnes = (EliasFano.onesW v).length := by rw [h2, hx]
  unfold eliasFano
  rw [e0, bind_pure_some, e, bind_pure_some, e1, bind_pure_some, (equalBits_iff _ _ _).2 ⟨h1, a1⟩, bind_pure_some,
    (rankSelect_iff true v _).2 ⟨fun i hi => a2 i (by omega), fun i hi => ?_, fun i q hi hq => ?_, fun i q hi hq => ?_⟩, bind_pure_some, hno,
    (delta_iff (EliasFano.onesW v) _ _ fun i hi => by rw [EliasFano.select_eq ov g i hi, List.getElem?_eq_getElem hi]).2 ?_, bind_pure_some]
  · have hlen : (ones v).length = (EliasFano.onesW v).length := by rw [← onesW_ones v (by omega), List.length_map]
    by_cases h0 : 0 < (EliasFano.onesW v).length
    · obtain ⟨en, k1, k2⟩ := EliasFano.SelEnum.new_ok g 0 h0
      rw [k1, bind_pure_some]
      refine (selectEnumeration_iff _ v en).2 ⟨EliasFano.onesW v, ?_, onesW_ones v (by omega)⟩
      rw [hlen, pull_run g _ 0 (by omega) en k2, List.drop_zero, List.take_length]
    · obtain ⟨en, k1⟩ : ∃ en, EliasFano.SelEnum.new ef 0 = some en := by
        unfold EliasFano.SelEnum.new
        rw [lowMask_eq _ g.lb, bind_pure_some]
        dsimp only
        rw [if_pos (by omega)]
        exact ⟨_, rfl⟩
      rw [k1, bind_pure_some]
      refine (selectEnumeration_iff _ v en).2 ⟨EliasFano.onesW v, ?_, onesW_ones v (by omega)⟩
      have h00 : EliasFano.onesW v = [] := List.length_eq_zero_iff.1 (by omega)
      rw [hlen, h00]; rfl
  · intro i x hx
    obtain ⟨hi, rfl⟩ := List.getElem?_eq_some_iff.1 hx
    cases i with
    | zero => rw [EliasFano.delta_zero ov g hi]; simp
    | succ i =>
      rw [EliasFano.delta_succ ov g i hi, if_neg (by omega), Nat.add_sub_cancel, List.getD_eq_getElem?_getD, List.getElem?_eq_getElem (by omega)]
      rfl
  · obtain ⟨x, k1, k2⟩ := a3 _ (count_lt hi)
    show (ef.select ov _).map _ = _
    rw [k1]
    exact congrArg some (isSelect1_unique k2 (isSelect1_of hi))
  · obtain ⟨x, k1, k2⟩ := a4 i hi (by
      have h1 : (v.take (i+1))[q]? = some true := by rw [List.getElem?_take_of_lt (by have := hq.1; omega)]; exact hq.2.1
      exact List.mem_of_getElem? h1)
    show (ef.predecessor1 ov _).map _ = _
    rw [k1]
    exact congrArg some (isPred_unique k2 hq)
  · obtain ⟨x, k1, k2⟩ := a5 i hi (by
      have h1 : (v.drop i)[q - i]? = some true := by rw [List.getElem?_drop, Nat.add_sub_cancel' hq.1]; exact hq.2.1
      exact List.mem_of_getElem? h1)
    show (ef.successor1 ov _).map _ = _
    rw [k1]
    exact congrArg some (isSucc_unique k2 hq)

end Test
end Succinct
