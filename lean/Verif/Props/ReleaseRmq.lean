import Verif.Lemmas.ReleaseRmq
import Verif.Lemmas.SpaceRS
import Verif.Props.ReleaseRank
import Verif.Props.ReleaseSeq
import Verif.Props.MachineTopK

/-!
# C108: range minima and top-k queries when assertions are compiled out

`Verif/Model/ReleaseRmq.lean` holds the code of a build with `NDEBUG`; `none` is undefined behaviour.  On ranges inside the sequence
the answers are those of the code with assertions.  `excess` beyond the end counts closing parentheses, for fewer than 1000 positions.
A range that ends beyond the values of a `cartesian_tree` makes it read outside its tables, but a range given the wrong way round can
get an answer, which need not lie in the range or in the sequence.
-/
namespace Succinct
open Spec
open Machine (W)
open RSBitVector (bind_pure_some)

/-- **C108**: what the code with assertions answers, the code without them answers too, whatever the objects hold.  For a `topk_vector`
this holds if it holds for `operator[]` of the container. -/
theorem C108_same_answers :
    (∀ (v : Machine.BpVector) (p : Word) r, v.excess p = some r → Release.excess v p = some r) ∧
    (∀ (v : Machine.BpVector) (a b : Word) r, v.excessRmq a b = some r → Release.excessRmq v a b = some r) ∧
    (∀ (t : Machine.CartesianTree) (a b r : Word), t.rmq a b = some r → Release.cartRmq t a b = some r) ∧
    (∀ {V α : Type} (c c' : Machine.Container V α) (h : HeapOps (Machine.QElem α)) (t : Machine.TopK V),
      (∀ v i r, c.get v i = some r → c'.get v i = some r) → ∀ a b : Word,
      (∀ k r, t.topk c h a b k = some r → Release.TopK.topk c' h t a b k = some r) ∧
      (∀ e0 e, t.getEnumerator c a b e0 = some e → Release.TopK.getEnumerator c' t a b e0 = some e) ∧
      ∀ k e r, Machine.TopKEnum.nexts c h k e = some r → Release.TopK.nexts c' h k e = some r) :=
  ⟨fun v p => Release.excess_below v p, fun v a b => Release.excessRmq_below v a b, fun t a b => Release.cartRmq_below t a b,
    fun _ _ h t hc a b => ⟨fun k => Release.TopK.topk_below hc h t a b k, fun e0 => Release.TopK.getEnumerator_below hc t a b e0,
      fun k e => Release.TopK.nexts_below hc h k e⟩⟩

/-- **C108**, `bp_vector`: `excess` of a position up to the end and `excess_rmq` of a range. -/
theorem C108_bp_vector (p : Prog) (l : List Bool) (h : p.spec = some l) (hr : p.ReserveAligned) (hl : Bal l)
    (hlen : l.length < 2^31) (hints hints0 : Bool) :
    ∃ bv v, Machine.history p = some bv ∧ Machine.BpVector.build bv hints hints0 = some v ∧
      (∀ p : Word, p.toNat ≤ l.length → Release.excess v p = some (Spec.excess l p.toNat)) ∧
      (∀ a b : Word, a.toNat ≤ b.toNat → b.toNat ≤ l.length →
        ∃ p, Release.excessRmq v a b = some (p, Spec.excess l p.toNat) ∧ IsExcessRmq l a.toNat b.toNat p.toNat) ∧
      ∀ p : Word, l.length < p.toNat → Release.excess v p =
        if p.toNat / 512 ≤ ((l.length + 63) / 64 + 7) / 8 ∧ (p.toNat % 64 = 0 ∨ p.toNat / 64 < (l.length + 63) / 64)
        then some ((l.length : Int) - p.toNat) else none := by
  obtain ⟨bv, v, h1, h2, ha⟩ := C85_bp_vector (fun _ _ => 0) p l h hr hl hlen hints hints0
  refine ⟨bv, v, h1, h2, fun q hq => Release.excess_below v q _ (ha.excess q hq), fun a b hab hb => ?_, fun q hq => ?_⟩
  · obtain ⟨r, e, hm⟩ := ha.rmq a b hab hb
    exact ⟨r, Release.excessRmq_below v a b _ e, hm⟩
  · obtain ⟨bv', rs, h1', h3, hrk, _⟩ := C102_rs_bit_vector p l h hr (by omega) hints hints0
    rw [h1] at h1'
    obtain rfl := Option.some.inj h1'
    have hrs : v.rs = rs := by
      unfold Machine.BpVector.build at h2
      rw [h3, bind_pure_some] at h2
      unfold Machine.BpVector.buildMinTree at h2
      split at h2
      · cases h2; rfl
      · simp only [Option.bind_eq_bind, Option.bind_eq_some_iff] at h2
        obtain ⟨_, _, _, _, _, _, _, _, _, _, _, _, h4⟩ := h2
        rw [← Option.some.inj h4]

    have hk := hrk q
    rw [← hrs] at hk
    unfold Release.excess
    split at hk
    · next hc =>
      rw [if_pos hc]
      rw [Option.map_eq_some_iff] at hk
      obtain ⟨r, e, hr1⟩ := hk
      rw [e, bind_pure_some]
      have hfull : rank1 l q.toNat = l.count true := by unfold rank1; rw [List.take_of_length_le (by omega)]
      have hz := (Bal.dyck hl).zero
      have hbal : 2 * l.count true = l.length := by
        have e1 := spec_excess_eq l l.length (Nat.le_refl _)
        rw [show BpVector.exc l l.length = 0 from hz] at e1
        unfold Spec.excess at e1
        rw [List.take_length] at e1
        have := count_add_count l
        omega
      have hq2 : q.toNat ≤ l.length + 2048 := by omega
      have : Machine.s32 (2 * r - q) = (l.length : Int) - q.toNat := by
        rw [← Machine.W_of q, Machine.BpVector.s32_len, Machine.W_toNat _ q.isLt]
        rw [toI32_eq] <;> omega
      rw [this]; rfl
    · next hc =>
      rw [if_neg hc]
      rw [Option.map_eq_none_iff] at hk
      rw [hk]; rfl

theorem Release.select0_far {l : List Bool} {w : RSBitVector} {a : Bool} (e : RSBitVector.build (BitVector.ofRange l) a true = some w)
    (hl : l.length < 2^31) (n : Word) (hn : 2^62 ≤ n.toNat) : Release.rsSelect0 (Machine.RSBitVector.enc w) n = none := by
  have hs := (RSBitVector.build_shape e).hints0
  rw [if_pos rfl] at hs
  have hlen : ((Machine.RSBitVector.enc w).hints0).length = w.hints0.length := List.length_map ..
  have h0 : Machine.vlen (Machine.RSBitVector.enc w).hints0 ≠ 0 := by
    intro h
    have := congrArg BitVec.toNat h
    unfold Machine.vlen at this
    rw [hlen, BitVec.toNat_ofNat, Nat.mod_eq_of_lt (by omega)] at this
    change _ = 0 at this
    omega
  have hc : (n / 1024).toNat = n.toNat / 1024 := BitVec.toNat_udiv
  have hnone : Machine.at_ (Machine.RSBitVector.enc w).hints0 (n / 1024) = none := by
    unfold Machine.at_
    rw [hc]
    exact List.getElem?_eq_none (by omega)
  have hi : ∀ nb, Machine.RSBitVector.interval (Machine.RSBitVector.enc w).hints0 nb n = none := by
    intro nb
    unfold Machine.RSBitVector.interval
    rw [if_pos h0]
    dsimp only
    rw [hnone]
    cases Machine.RSBitVector.hintLow (Machine.RSBitVector.enc w).hints0 (n / 1024) <;> rfl
  unfold Release.rsSelect0
  dsimp only
  rw [hi]
  rfl

/-- **C108**, `cartesian_tree`: a range inside the sequence gets the leftmost minimum; a range of more than one position that ends
beyond the sequence is undefined behaviour. -/
theorem C108_rmq {α : Type} (comp : α → α → Bool) (ho : StrictWeak comp) (v : List α) (hv : v.length < 2^30 - 1) :
    ∃ t, Machine.CartesianTree.build comp v = some t ∧ t.size.toNat = v.length ∧
      (∀ a b : Word, a.toNat ≤ b.toNat → b.toNat < v.length →
        ∃ m, Release.cartRmq t a b = some m ∧ IsLeftmostMin comp v a.toNat b.toNat m.toNat) ∧
      (∀ a b : Word, a ≠ b → v.length ≤ b.toNat → b.toNat < 2^63 → Release.cartRmq t a b = none) ∧
      (∀ a : Word, Release.cartRmq t a a = some a) := by
  have hlen := Cart.fin_length comp v
  obtain ⟨t, em, hsz, hq, _, hone⟩ := C85_rmq comp ho v hv
  refine ⟨t, em, hsz, fun a b hab hb => ?_, fun a b hne hb hb2 => ?_, fun a => Release.cartRmq_below _ _ _ _ (hone a)⟩
  · obtain ⟨m, e, hm⟩ := hq a b hab hb
    exact ⟨m, Release.cartRmq_below _ _ _ _ e, hm⟩
  · obtain ⟨t', e', em', hbv, _⟩ := Machine.CartesianTree.build_sim comp v hv
    rw [em] at em'
    obtain rfl := Option.some.inj em'
    have hbuild : RSBitVector.build (BitVector.ofRange (Cart.fin comp v)) false true = some t'.bp.rs := by
      unfold CartesianTree.build CartesianTree.ofBuilder BpVector.build at e'
      simp only [Option.bind_eq_bind, Option.bind_eq_some_iff] at e'
      obtain ⟨_, _, _, _, _, _, bv, _, x, ⟨rs, k1, k2⟩, k3⟩ := e'
      obtain rfl := Option.some.inj k3
      have hrs := (BpVector.buildMinTree_shape k2).rsEq
      have hb' : rs.bv = bv := by
        unfold RSBitVector.build at k1
        simp only [Option.bind_eq_bind, Option.bind_eq_some_iff] at k1
        obtain ⟨_, _, k1⟩ := k1
        rw [if_neg (by simp), Option.bind_some, if_pos trivial, Option.bind_eq_some_iff] at k1
        obtain ⟨_, _, k4⟩ := k1
        rw [← Option.some.inj k4]
      rw [← hbv]
      dsimp only
      rw [hrs, hb', k1]
    have hnb : (Machine.CartesianTree.enc t').size - b - 1 = W (2^64 + v.length - b.toNat - 1) := by
      apply BitVec.eq_of_toNat_eq
      rw [BitVec.toNat_sub, BitVec.toNat_sub, hsz, Machine.W_toNat _ (by omega)]
      change (2^64 - 1 + (2^64 - b.toNat + v.length) % 2^64) % 2^64 = _
      omega
    unfold Release.cartRmq
    rw [if_neg hne]
    dsimp only
    rw [hnb, show (Machine.CartesianTree.enc t').bp.rs = Machine.RSBitVector.enc t'.bp.rs from rfl,
      Release.select0_far hbuild (by omega) _ (by rw [Machine.W_toNat _ (by omega)]; omega)]
    rfl

/-- what a `topk_vector` of `v` answers without assertions, for a container `c` and heap operations `h` -/
structure Release.TopK.Answers {V α : Type} (c : Machine.Container V α) (lt : α → α → Bool) (h : HeapOps (Machine.QElem α)) (v : List α)
    (t : Machine.TopK V) : Prop where
  size : (t.size c).toNat = v.length
  get : ∀ i : Word, i.toNat < v.length → t.get c i = v[i.toNat]?
  ranges : ∀ a b : Word, a.toNat ≤ b.toNat → b.toNat < v.length →
    ∃ s, IsRanking lt v a.toNat b.toNat s ∧ s.length = b.toNat - a.toNat + 1 ∧
      (∀ k : Word, Release.TopK.topk c h t a b k = some ((s.take k.toNat).map fun p => (p.1, BitVec.ofNat 64 p.2))) ∧
      ∀ e0, ∃ e, Release.TopK.getEnumerator c t a b e0 = some e ∧
        ∀ k, Release.TopK.nexts c h k e = some ((List.range k).map fun i => s[i]?.map fun p => (p.1, BitVec.ofNat 64 p.2))
  /-- undefined behaviour: the range ends beyond the vector -/
  beyond : ∀ a b : Word, a ≠ b → v.length ≤ b.toNat → b.toNat < 2^63 →
    (∀ k, Release.TopK.topk c h t a b k = none) ∧ ∀ e0, Release.TopK.getEnumerator c t a b e0 = none
  single : ∀ a : Word, t.get c a = none → (∀ k, Release.TopK.topk c h t a a k = none) ∧ ∀ e0, Release.TopK.getEnumerator c t a a e0 = none

/-- **C108**, `topk_vector` over any container that returns what it was made from. -/
theorem C108_topk {V α : Type} (c : Machine.Container V α) (o : Ops α) (ho : TotalOrder o.lt o.eq) (h : HeapOps (Machine.QElem α))
    (hh : h.Valid (Machine.viComp o)) (v : List α) (hv : v.length < 2^30 - 1) (cv : V) (hb : c.build v = some cv)
    (hs : (c.size cv).toNat = v.length) (hg : ∀ i : Word, i.toNat < v.length → c.get cv i = v[i.toNat]?) :
    ∃ t, Machine.TopK.build c o v = some t ∧ t.v = cv ∧ Release.TopK.Answers c o.lt h v t := by
  obtain ⟨t, e, hcv, ha⟩ := C87_topk c o ho h hh v hv cv hb hs hg
  obtain ⟨tr, et, _, _, hbey, hone⟩ := C108_rmq (fun x y => o.lt y x) ho.weak.converse v hv
  have htr : t.tree = tr := by
    unfold Machine.TopK.build at e
    rw [et, bind_pure_some, hb, bind_pure_some] at e
    rw [← Option.some.inj e]
  have hf : Release.TopK.Follows c c := fun _ _ => Release.Below.rfl
  have hnone : ∀ a b : Word, Release.TopK.elemFor c t a b = none →
      (∀ k, Release.TopK.topk c h t a b k = none) ∧ ∀ e0, Release.TopK.getEnumerator c t a b e0 = none := by
    intro a b hn
    have h2 : ∀ e0, Release.TopK.getEnumerator c t a b e0 = none := by
      intro e0
      unfold Release.TopK.getEnumerator
      rw [hn]; rfl
    refine ⟨fun k => ?_, h2⟩
    unfold Release.TopK.topk
    rw [h2]; rfl
  refine ⟨t, e, hcv, ha.size, ha.get, fun a b hab hbl => ?_, fun a b hne h1 h2 => hnone a b ?_, fun a h1 => hnone a a ?_⟩
  · obtain ⟨s, s1, s2, s3, s4⟩ := ha.ranges a b hab hbl
    refine ⟨s, s1, s2, fun k => Release.TopK.topk_below hf h t a b k _ (s3 k), fun e0 => ?_⟩
    obtain ⟨e1, k1, k2⟩ := s4 e0
    exact ⟨e1, Release.TopK.getEnumerator_below hf t a b e0 _ k1, fun k => Release.TopK.nexts_below hf h k e1 _ (k2 k)⟩
  · unfold Release.TopK.elemFor
    rw [htr, hbey a b hne h1 h2]; rfl
  · unfold Release.TopK.elemFor
    rw [htr, hone a, bind_pure_some]
    unfold Machine.TopK.get at h1
    rw [h1]; rfl

/-- **C108**, `topk_vector` over the containers of the library, built and read without assertions in `operator[]`. -/
theorem C108_topk_containers (v : List Word) (h : HeapOps (Machine.QElem Word)) (hh : h.Valid (Machine.viComp wordOps)) (hl : v.length < 2^30 - 1)
    (ov : Word → Nat → Word) :
    (∃ t, Machine.TopK.build .mappableVector wordOps v = some t ∧ Release.TopK.Answers .mappableVector wordOps.lt h v t) ∧
    ((v.map BitVec.toNat).sum < 2^64 - 1 →
      ∃ t, Machine.TopK.build (Release.efListC ov) wordOps v = some t ∧ Release.TopK.Answers (Release.efListC ov) wordOps.lt h v t) ∧
    ((∀ x ∈ v, x ≠ BitVec.allOnes 64) →
      (∃ t, Machine.TopK.build (Release.efCompressedListC ov) wordOps v = some t ∧ Release.TopK.Answers (Release.efCompressedListC ov) wordOps.lt h v t) ∧
      ∃ t, Machine.TopK.build (Release.gammaVectorC ov) wordOps v = some t ∧ Release.TopK.Answers (Release.gammaVectorC ov) wordOps.lt h v t) ∧
    ((∀ x ∈ v, x.toNat < 2^64 - 2) →
      ∃ t, Machine.TopK.build (Release.gammaBitVectorC ov) wordOps v = some t ∧ Release.TopK.Answers (Release.gammaBitVectorC ov) wordOps.lt h v t) := by
  refine ⟨?_, fun hs => ?_, fun hx => ⟨?_, ?_⟩, fun hx => ?_⟩
  · obtain ⟨t, e, _, ha⟩ := C108_topk .mappableVector wordOps wordOps_total h hh v hl v rfl (Machine.W_toNat _ (by omega)) (fun i _ => rfl)
    exact ⟨t, e, ha⟩
  · obtain ⟨cv, e, k1, _⟩ := C76_list v hs (by omega)
    obtain ⟨cv', e', k2⟩ := C104_list v hs (by omega)
    obtain rfl := Option.some.inj (e.symm.trans e')
    obtain ⟨t, e, _, ha⟩ := C108_topk (Release.efListC ov) wordOps wordOps_total h hh v hl cv e k1 (fun i _ => (k2 ov).1 i)
    exact ⟨t, e, ha⟩
  · obtain ⟨cv, e, k1, _⟩ := C76_compressed_list v hx (by omega)
    obtain ⟨cv', e', k2⟩ := C104_compressed_list v hx (by omega)
    obtain rfl := Option.some.inj (e.symm.trans e')
    obtain ⟨t, e, _, ha⟩ := C108_topk (Release.efCompressedListC ov) wordOps wordOps_total h hh v hl cv e k1 (fun i _ => (k2 ov).1 i)
    exact ⟨t, e, ha⟩
  · obtain ⟨cv, e, k1, _⟩ := C76_gamma_vector v hx (by omega)
    obtain ⟨cv', e', k2, _⟩ := C104_gamma_vector v hx (by omega)
    obtain rfl := Option.some.inj (e.symm.trans e')
    obtain ⟨t, e, _, ha⟩ := C108_topk (Release.gammaVectorC ov) wordOps wordOps_total h hh v hl cv e k1 (fun i _ => k2 ov i)
    exact ⟨t, e, ha⟩
  · obtain ⟨cv, e, k1, _⟩ := C76_gamma_bit_vector v hx (by omega)
    obtain ⟨cv', e', k2, _⟩ := C104_gamma_bit_vector v hx (by omega)
    obtain rfl := Option.some.inj (e.symm.trans e')
    obtain ⟨t, e, _, ha⟩ := C108_topk (Release.gammaBitVectorC ov) wordOps wordOps_total h hh v hl cv e k1 (fun i _ => k2 ov i)
    exact ⟨t, e, ha⟩

/-- the tree of the values 0, ..., 39 -/
def ascending : List Nat := List.range 40

/-- **C108**: a range given the wrong way round, which the code with assertions rejects, gets an answer: position 17 for the range from 20 to 18,
and `2^64 - 47` for the range from 3 to 1 of eight values. -/
theorem C108_reversed_false :
    (∃ t, Machine.CartesianTree.build (fun a b => decide (a < b)) ascending = some t ∧
      Release.cartRmq t 20 18 = some 17 ∧ t.rmq 20 18 = none) ∧
    ∃ t, Machine.CartesianTree.build (fun a b => decide (a < b)) [3, 1, 4, 1, 5, 9, 2, 6] = some t ∧
      Release.cartRmq t 3 1 = some 18446744073709551569 ∧ t.rmq 3 1 = none ∧
      Release.cartRmq t 0 18446744073709551615 = some 18446744073709551569 := by
  constructor
  · have h : (Machine.CartesianTree.build (fun a b => decide (a < b)) ascending).bind
      (fun t => some (Release.cartRmq t 20 18, t.rmq 20 18)) = some (some 17, none) := by decide +kernel
    rw [Option.bind_eq_some_iff] at h
    obtain ⟨t, e, h⟩ := h
    simp only [Option.some.injEq, Prod.mk.injEq] at h
    exact ⟨t, e, h⟩
  · have h : (Machine.CartesianTree.build (fun a b => decide (a < b)) [3, 1, 4, 1, 5, 9, 2, 6]).bind
      (fun t => some (Release.cartRmq t 3 1, t.rmq 3 1, Release.cartRmq t 0 18446744073709551615)) =
        some (some 18446744073709551569, none, some 18446744073709551569) := by decide +kernel
    rw [Option.bind_eq_some_iff] at h
    obtain ⟨t, e, h⟩ := h
    simp only [Option.some.injEq, Prod.mk.injEq] at h
    exact ⟨t, e, h⟩

/-! ## cases that meet the hypotheses -/

example : (Machine.CartesianTree.build (fun a b => decide (a < b)) ascending).bind
    (fun t => some (Release.cartRmq t 18 20, Release.cartRmq t 18 40, Release.cartRmq t 41 41)) = some (some 18, none, some 41) := by decide +kernel

/-- `topk` of the vector 3, 9, 4, 9, 5, 2 -/
def topkReleaseCase (a b k : Word) : Option (List (Word × Word)) :=
  (Machine.TopK.build (Release.gammaVectorC fun _ _ => 0) wordOps [3, 9, 4, 9, 5, 2]).bind fun t =>
    Release.TopK.topk (Release.gammaVectorC fun _ _ => 0) (sortHeap (Machine.viComp wordOps)) t a b k

example : topkReleaseCase 0 4 3 = some [(9, 1), (9, 3), (5, 4)] ∧ topkReleaseCase 2 2 (BitVec.allOnes 64) = some [(4, 2)] ∧
    topkReleaseCase 2 6 1 = none ∧ topkReleaseCase 6 6 1 = none := by decide +kernel

/-- positions 6, 7, 63 and 64 are beyond the end; 65 is not in the only word -/
example : (Machine.BpVector.build (Machine.BitVector.enc (BitVector.ofRange [true, true, false, true, false, false])) false true).bind
    (fun v => some ((([5, 6, 7, 63, 64, 65] : List Word).map (Release.excess v)), Release.excessRmq v 1 4)) =
      some ([some 1, some 0, some (-1), some (-57), some (-58), none], some (1, 1)) := by decide +kernel

end Succinct
