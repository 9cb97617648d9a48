import Verif.Lemmas.TopKOver
import Verif.Props.Contract
import Verif.Props.Space

/-!
# C79: `topk_vector` over the containers of the library

`C38` and `C39` take the underlying vector for the list of its values.  Here it is `elias_fano_compressed_list`, `elias_fano_list`,
`gamma_vector`, `gamma_bit_vector` or `mappable_vector`, with its own encoding.
-/
namespace Succinct
open Spec Mapper
open RSBitVector (bind_pure_some)

/-- Everything a `topk_vector` over the container `c`, made from the range `r`, has to answer for the values `v`: `size()`, `operator[]`,
`topk` for every range and count, and its enumerators, whatever state they were in before. -/
def TopKAnswers {ρ α V : Type} (c : Container V α) (o : Ops α) (lt : ρ → ρ → Bool) (conv : ρ → α) (h : HeapOps (QElem α)) (r : List ρ) (v : List α)
    (t : TopKOver V) : Prop :=
  TopKOver.build c lt conv r = some t ∧ t.size c = some v.length ∧ (∀ i, t.get c i = v[i]?) ∧
    ∀ a b, a ≤ b → b < v.length → ∃ s, IsRanking o.lt v a b s ∧ s.length = b - a + 1 ∧ (∀ k, t.topk c h a b k = some (s.take k)) ∧
      ∀ e0, ∃ e, t.getEnumerator c a b e0 = some e ∧ ∀ k, e.nexts c h k = some ((List.range k).map fun i => s[i]?)

/-- **C79**, any container: if it returns what it was made from, and the range is ordered as its values are, then all answers are right. -/
theorem C79_container {ρ α V : Type} (c : Container V α) (o : Ops α) (ho : TotalOrder o.lt o.eq) (lt : ρ → ρ → Bool) (conv : ρ → α)
    (hlt : ∀ x y, o.lt (conv x) (conv y) = lt x y) (h : HeapOps (QElem α)) (hh : h.Valid (viComp o)) (r : List ρ) (hr : r.length < 2^30 - 1)
    (cv : V) (hb : c.build (r.map conv) = some cv) (hs : c.size cv = some r.length) (hg : ∀ i, c.get cv i = (r.map conv)[i]?) :
    ∃ t, TopKAnswers c o lt conv h r (r.map conv) t ∧ t.v = cv := by
  have hv : (r.map conv).length < 2^30 - 1 := by rw [List.length_map]; exact hr
  obtain ⟨t0, e0, ht⟩ := C38_topk o ho h hh (r.map conv) hv
  obtain ⟨t1, e1, he⟩ := C39_enumerator o ho h hh (r.map conv) hv
  rw [e0] at e1; cases e1
  have e2 : CartesianTree.build (fun x y => lt y x) r = some t0.tree ∧ t0.v = r.map conv := by
    rw [← CartesianTree.build_map (la := fun x y => o.lt y x) (f := conv) (fun x y => hlt y x)]
    unfold TopK.build at e0
    simp only [Option.bind_eq_bind, Option.bind_eq_some_iff] at e0
    obtain ⟨tr, k1, k2⟩ := e0
    cases k2
    exact ⟨k1, rfl⟩
  have e3 : t0 = ⟨r.map conv, t0.tree⟩ := by rw [← e2.2]
  have hget : ∀ i, c.get (⟨cv, t0.tree⟩ : TopKOver V).v i = (r.map conv)[i]? := hg
  refine ⟨⟨cv, t0.tree⟩, ⟨?_, ?_, hg, ?_⟩, rfl⟩
  · unfold TopKOver.build
    rw [e2.1, bind_pure_some, hb]; rfl
  · rw [List.length_map]; exact hs
  · intro a b hab hbv
    obtain ⟨s, s1, s2, _⟩ := ht a b 0 hab hbv
    refine ⟨s, s1, s2, fun k => ?_, fun en0 => ?_⟩
    · obtain ⟨s', p1, _, p3⟩ := ht a b k hab hbv
      rw [TopKOverEnum.topk_erase h hget, ← e3, p3, C38_unique o ho _ a b s s' s1 p1]
    · obtain ⟨k1, k2⟩ := TopKOverEnum.set_erase hget en0 (TopKEnum.mk none [] en0.cur) rfl a b
      obtain ⟨e, s', p1, p2, _, p4⟩ := he a b (TopKEnum.mk none [] en0.cur) hab hbv
      unfold TopK.getEnumerator at p1
      rw [e3, k1] at p1
      obtain ⟨e', q1, q2⟩ := Option.map_eq_some_iff.1 p1
      refine ⟨e', q1, fun k => ?_⟩
      rw [TopKOverEnum.nexts_erase h k (k2 e' q1), q2, p4, C38_unique o ho _ a b s s' s1 p2]

/-- `<` and `==` on `uint64_t` -/
def wordOps : Ops Word := ⟨fun a b => decide (a < b), fun a b => decide (a = b)⟩

theorem wordOps_total : TotalOrder wordOps.lt wordOps.eq where
  weak :=
    { irrefl := fun a => by simp [wordOps]
      trans := fun a b c h1 h2 => by simp [wordOps, BitVec.lt_def] at *; omega
      incomp := fun a b c h1 h2 h3 h4 => by simp [wordOps, BitVec.lt_def] at *; omega }
  eqv := fun a b => by simp [wordOps, BitVec.lt_def, ← BitVec.toNat_inj]; omega

theorem none_of {α : Type} {x : Option α} {p : Prop} (h : x.isSome = true ↔ p) (hp : ¬ p) : x = none := by
  cases x with
  | none => rfl
  | some a => exact absurd (h.1 rfl) hp

section
variable (h : HeapOps (QElem Word)) (hh : h.Valid (viComp wordOps)) (v : List Word) (hl : v.length < 2^30 - 1)
include hh hl

theorem C79_word {V : Type} (c : Container V Word) (cv : V) (hb : c.build v = some cv) (hs : c.size cv = some v.length) (hg : ∀ i, c.get cv i = v[i]?) :
    ∃ t, TopKAnswers c wordOps wordOps.lt id h v v t ∧ t.v = cv := by
  have := C79_container c wordOps wordOps_total wordOps.lt id (fun _ _ => rfl) h hh v hl cv (by rw [List.map_id]; exact hb) hs
    (by rw [List.map_id]; exact hg)
  rwa [List.map_id] at this

omit hh in
theorem tree_fits {V : Type} {c : Container V Word} {t : TopKOver V} (ht : TopKAnswers c wordOps wordOps.lt id h v v t) :
    Codec.cartesianTree.fits t.tree := by
  have hb := ht.1
  unfold TopKOver.build at hb
  simp only [Option.bind_eq_bind, Option.bind_eq_some_iff] at hb
  obtain ⟨tr, k1, cv, _, k3⟩ := hb
  cases k3
  exact cartesian_fits hl k1

/-- **C79**, `topk_vector<mappable_vector<uint64_t>>` -/
theorem C79_mappable_vector : ∃ t, TopKAnswers Container.mappableVector wordOps wordOps.lt id h v v t ∧
    RestoresAt (Codec.topKOver (Codec.vw64 "m_v")) t := by
  obtain ⟨t, ht, e⟩ := C79_word h hh v hl Container.mappableVector v rfl rfl (fun i => rfl)
  exact ⟨t, ht, (Codec.topKOver_lawful (Codec.vw64_lawful _)).restores _
    ⟨by show t.v.length < _ ∧ _; rw [e]; exact ⟨by omega, fun _ _ => trivial⟩, tree_fits h v hl ht⟩⟩

/-- **C79**, `topk_vector<elias_fano_compressed_list>`: built from values below `2^64 - 1`, it gives the right answers, also after it has been
frozen and mapped again. -/
theorem C79_compressed_list (ov : Word → Nat → Word) (hv : ∀ x ∈ v, x ≠ BitVec.allOnes 64) :
    ∃ t, TopKAnswers (Container.efCompressedList ov) wordOps wordOps.lt id h v v t ∧
      RestoresAt (Codec.topKOver (Codec.obj "m_v" Codec.efCompressedList)) t := by
  obtain ⟨cv, e, hs, hg⟩ := C27_compressed_list v hv (by omega)
  obtain ⟨s, s1, s2⟩ := EFCompressedList.build_shape e
  have hbt := bitsOf_le 1 v
  obtain ⟨t, ht, et⟩ := C79_word h hh v hl (Container.efCompressedList ov) cv e hs (fun i => by
    by_cases hi : i < v.length
    · exact hg ov i hi
    · have := ((C73_lists v [] ov).2.1 cv (by omega) e i)
      rw [List.getElem?_eq_none (by omega)]
      show EFCompressedList.get ov cv i = none
      exact none_of this hi)
  refine ⟨t, ht, (Codec.topKOver_lawful (Codec.obj_lawful _ Codec.efCompressedList_lawful)).restores _ ⟨?_, tree_fits h v hl ht⟩⟩
  show Codec.efCompressedList.fits t.v
  rw [et]
  exact ⟨Codec.eliasFano_fits s (Codec.shape_high s (by omega) (by omega)) (Codec.shape_low s (by omega)),
     Codec.bitVector_fits (by simp only []; omega) (by simp only []; omega)⟩

/-- **C79**, `topk_vector<elias_fano_list>`: values with a sum below `2^64 - 1` -/
theorem C79_list (ov : Word → Nat → Word) (hv : (v.map BitVec.toNat).sum < 2^64 - 1) :
    ∃ t, TopKAnswers (Container.efList ov) wordOps wordOps.lt id h v v t ∧
      RestoresAt (Codec.topKOver (Codec.obj "m_v" Codec.efList)) t := by
  obtain ⟨cv, e, hs, _, hg⟩ := C26_list v hv (by omega)
  have s := EFList.build_shape e
  obtain ⟨t, ht, et⟩ := C79_word h hh v hl (Container.efList ov) cv e (by show some _ = _; rw [hs]) (fun i => by
    by_cases hi : i < v.length
    · exact hg ov i hi
    · have := ((C73_lists v [] ov).1 cv (by omega) e i)
      rw [List.getElem?_eq_none (by omega)]
      show EFList.get ov cv i = none
      exact none_of this hi)
  refine ⟨t, ht, (Codec.topKOver_lawful (Codec.obj_lawful _ Codec.efList_lawful)).restores _ ⟨?_, tree_fits h v hl ht⟩⟩
  show Codec.eliasFano.fits t.v.ef
  rw [et]
  refine Codec.eliasFano_fits s ?_ (Codec.shape_low s (by omega))
  rcases Nat.eq_zero_or_pos v.length with h0 | h0
  · have := s.high
    have hv := List.eq_nil_of_length_eq_zero h0
    subst hv
    have hl0 := lowLen_log2 s.hl
    simp at hl0
    rw [hl0] at this
    simp at this
    omega
  · exact Codec.shape_high s h0 (by omega)

/-- **C79**, `topk_vector<gamma_vector>`: values below `2^64 - 1` -/
theorem C79_gamma_vector (ov : Word → Nat → Word) (hv : ∀ x ∈ v, x ≠ BitVec.allOnes 64) :
    ∃ t, TopKAnswers (Container.gammaVector ov) wordOps wordOps.lt id h v v t ∧
      RestoresAt (Codec.topKOver (Codec.obj "m_v" Codec.gammaVector)) t := by
  obtain ⟨cv, e, hs, hg⟩ := C28_gamma_vector v hv
  obtain ⟨s, s1, s2⟩ := GammaVector.build_shape e
  have hbt := bitsOf_le 1 v
  obtain ⟨t, ht, et⟩ := C79_word h hh v hl (Container.gammaVector ov) cv e hs (fun i => by
    by_cases hi : i < v.length
    · exact hg ov i hi
    · have := ((C73_lists v [] ov).2.2.1 cv e i)
      rw [List.getElem?_eq_none (by omega)]
      show GammaVector.get ov cv i = none
      exact none_of this hi)
  refine ⟨t, ht, (Codec.topKOver_lawful (Codec.obj_lawful _ Codec.gammaVector_lawful)).restores _ ⟨?_, tree_fits h v hl ht⟩⟩
  show Codec.gammaVector.fits t.v
  rw [et]
  exact ⟨Codec.darray64_fits s (by omega), Codec.bitVector_fits (by simp only []; omega) (by simp only []; omega)⟩

/-- **C79**, `topk_vector<gamma_bit_vector>`: values below `2^64 - 2` -/
theorem C79_gamma_bit_vector (ov : Word → Nat → Word) (hv : ∀ x ∈ v, x.toNat < 2^64 - 2) :
    ∃ t, TopKAnswers (Container.gammaBitVector ov) wordOps wordOps.lt id h v v t ∧
      RestoresAt (Codec.topKOver (Codec.obj "m_v" Codec.gammaBitVector)) t := by
  obtain ⟨cv, e, hs, hg⟩ := C29_gamma_bit_vector v hv
  obtain ⟨s, s1, s2⟩ := GammaBitVector.build_shape e
  have hbt := bitsOf_le 2 v
  obtain ⟨t, ht, et⟩ := C79_word h hh v hl (Container.gammaBitVector ov) cv e hs (fun i => by
    by_cases hi : i < v.length
    · exact hg ov i hi
    · have := ((C73_lists v [] ov).2.2.2.1 cv e i)
      rw [List.getElem?_eq_none (by omega)]
      show GammaBitVector.get ov cv i = none
      exact none_of this hi)
  refine ⟨t, ht, (Codec.topKOver_lawful (Codec.obj_lawful _ Codec.gammaBitVector_lawful)).restores _ ⟨?_, tree_fits h v hl ht⟩⟩
  show Codec.gammaBitVector.fits t.v
  rw [et]
  exact ⟨Codec.darray64_fits s (by omega), Codec.bitVector_fits (by simp only []; omega) (by simp only []; omega)⟩

end

/-- the order of the range matters: built from the `int64_t` values -2 and 5, the tree ranks 5 first, although the container holds
`2^64 - 2` and 5 -/
theorem C79_signed_false :
    (TopKOver.build (Container.efCompressedList fun _ _ => 0) (fun a b : Int => decide (a < b)) (BitVec.ofInt 64) [-2, 5] >>= fun t =>
      t.topk (Container.efCompressedList fun _ _ => 0) (sortHeap (viComp wordOps)) 0 1 2) = some [(5, 1), (0xfffffffffffffffe, 0)] ∧
    ¬ IsRanking wordOps.lt [0xfffffffffffffffe, 5] 0 1 [(5, 1), (0xfffffffffffffffe, 0)] := by
  refine ⟨by decide +kernel, fun h => ?_⟩
  have := (List.pairwise_cons.1 h.2).1 _ (List.mem_cons_self ..)
  unfold Before at this
  revert this
  decide +kernel

/-- the hypotheses can be met, and an answer -/
example : (sortHeap (viComp wordOps)).Valid (viComp wordOps) := sortHeap_valid (viComp_strictWeak _ wordOps_total)

example : (TopKOver.build (Container.efCompressedList fun _ _ => 0) wordOps.lt id [3, 9, 4, 9, 5, 2] >>= fun t =>
    t.topk (Container.efCompressedList fun _ _ => 0) (sortHeap (viComp wordOps)) 0 4 3) = some [(9, 1), (9, 3), (5, 4)] := by
  decide +kernel

example : ∀ x ∈ ([3, 9, 4, 9, 5, 2] : List Word), x ≠ BitVec.allOnes 64 ∧ x.toNat < 2^64 - 2 := by
  have : ∀ x ∈ ([3, 9, 4, 9, 5, 2] : List Word), x.toNat < 10 := by simp
  intro x hx
  have := this x hx
  exact ⟨by rintro rfl; rw [BitVec.toNat_allOnes] at this; omega, by omega⟩

end Succinct
