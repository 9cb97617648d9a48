import Verif.Model.Indet
import Verif.Props.Space
import Verif.Props.Canon
import Verif.Props.BitVector

/-! # C118: images depend on nothing but what is stored -/
namespace Succinct
open Mapper Spec
open RSBitVector (bind_pure_some)

/-- where a bit vector comes from: calls on a builder or a range -/
inductive Spec.Source
  | history (p : Prog)
  | range (l : List Bool)

/-- the bits it should hold -/
def Spec.Source.bits : Source → Option (List Bool)
  | .history p => p.spec
  | .range l => some l

/-- a source of fewer than `n` bits; a reallocating `reserve` happens at word boundaries only, see C01 -/
def Spec.Source.Ok (n : Nat) : Source → Prop
  | .history p => p.ReserveAligned ∧ ∃ l, p.spec = some l ∧ l.length < n
  | .range l => l.length < n

/-- the two constructors `bit_vector.hpp:195-225` -/
def Spec.Source.make : Source → Option BitVector
  | .history p => (Builder.run p).bind BitVector.ofBuilder
  | .range l => some (BitVector.ofRange l)

/-- `build i` succeeds for all `i` with `ok i` and two of these objects have the same image, byte for byte, if and only if what they
should hold, `cont i`, is the same -/
def Spec.Reproducible {ι α γ : Type} (c : Codec α) (ok : ι → Prop) (build : ι → Option α) (cont : ι → γ) : Prop :=
  ∀ i j, ok i → ok j → ∀ (name : String) (flags : Nat), ∃ x y ox oy, build i = some x ∧ build j = some y ∧
    freeze (top c name x) flags = some ox ∧ freeze (top c name y) flags = some oy ∧ (ox.bytes = oy.bytes ↔ cont i = cont j)

theorem reproducible_of {ι α γ : Type} {c : Codec α} {ok : ι → Prop} {build : ι → Option α} {cont : ι → γ}
    (hb : ∀ i, ok i → ∃ x, build i = some x ∧ RestoresAt c x) (hs : ∀ i j, ok i → ok j → cont i = cont j → build i = build j)
    (hd : ∀ i j x, ok i → ok j → build i = some x → build j = some x → cont i = cont j) : Reproducible c ok build cont := by
  intro i j hi hj name flags
  obtain ⟨x, ex, rx⟩ := hb i hi
  obtain ⟨y, ey, ry⟩ := hb j hj
  obtain ⟨o1, m1, n1, y1, a1, a2, a3, a4⟩ := rx flags 0 name []
  obtain ⟨o2, m2, n2, y2, b1, b2, b3, b4⟩ := ry flags 0 name []
  refine ⟨x, y, o1, o2, ex, ey, a1, b1, fun h => ?_, fun h => ?_⟩
  · rw [h, b2] at a2
    cases a2
    rw [h, b3] at a3
    cases a3
    rw [a4] at b4
    cases b4
    exact hd i j x hi hj ex ey
  · have := hs i j hi hj h
    rw [ex, ey] at this
    cases this
    rw [a1] at b1
    cases b1
    rfl

theorem Source.make_eq {s : Source} {n : Nat} (h : s.Ok n) : ∃ l, s.bits = some l ∧ l.length < n ∧ s.make = some (BitVector.ofRange l) := by
  cases s with
  | history p =>
    obtain ⟨hr, l, e, hl⟩ := h
    exact ⟨l, e, hl, C01_builder_eq_range p l e hr⟩
  | range l => exact ⟨l, rfl, h, rfl⟩

theorem ofRange_inj {l m : List Bool} (h : BitVector.ofRange l = BitVector.ofRange m) : l = m :=
  Rep.inj (BitVector.ofRange_rep l) (h ▸ BitVector.ofRange_rep m)

/-- **C118**: the image of a `bit_vector` depends on its bits only, not on how it was built -/
theorem C118_bit_vector : Reproducible Codec.bitVector (Source.Ok (2^60)) Source.make Source.bits := by
  refine reproducible_of (fun s h => ?_) (fun s t hs ht e => ?_) (fun s t x hs ht e1 e2 => ?_)
  · obtain ⟨l, _, hl, e⟩ := Source.make_eq h
    exact ⟨_, e, C58_bit_vector l hl⟩
  · obtain ⟨l, a1, _, a2⟩ := Source.make_eq hs
    obtain ⟨m, b1, _, b2⟩ := Source.make_eq ht
    rw [a1, b1] at e
    cases e
    rw [a2, b2]
  · obtain ⟨l, a1, _, a2⟩ := Source.make_eq hs
    obtain ⟨m, b1, _, b2⟩ := Source.make_eq ht
    rw [a2] at e1; rw [b2] at e2
    cases e1
    rw [a1, b1, ofRange_inj (Option.some.inj e2)]

/-- what the constructor of `rs_bit_vector` and `bp_vector` is given -/
structure Spec.Args where
  src : Source
  hints : Bool
  hints0 : Bool

theorem rs_determined {l m : List Bool} {a b a' b' : Bool} {x : RSBitVector} (e1 : RSBitVector.build (BitVector.ofRange l) a b = some x)
    (e2 : RSBitVector.build (BitVector.ofRange m) a' b' = some x) : l = m ∧ a = a' ∧ b = b' := by
  have s1 := RSBitVector.build_shape e1
  have s2 := RSBitVector.build_shape e2
  have hl : l = m := ofRange_inj (s1.bv.symm.trans s2.bv)
  subst hl
  have h1 := s1.hints.symm.trans s2.hints
  have h2 := s1.hints0.symm.trans s2.hints0
  refine ⟨rfl, ?_, ?_⟩
  · cases a <;> cases a' <;> first | rfl | (simp at h1; done) | (simp at h1; omega)
  · cases b <;> cases b' <;> first | rfl | (simp at h2; done) | (simp at h2; omega)

/-- **C118**: the image of an `rs_bit_vector` depends on its bits and on the hints asked for -/
theorem C118_rs_bit_vector : Reproducible Codec.rsBitVector (fun i : Args => i.src.Ok (2^60)) (fun i => i.src.make.bind fun v => RSBitVector.build v i.hints i.hints0)
    (fun i => (i.src.bits, i.hints, i.hints0)) := by
  refine reproducible_of (fun s h => ?_) (fun s t hs ht e => ?_) (fun s t x hs ht e1 e2 => ?_)
  · obtain ⟨l, _, hl, e⟩ := Source.make_eq h
    obtain ⟨v, ev, r⟩ := C58_rs_bit_vector l s.hints s.hints0 hl
    exact ⟨v, by rw [e]; exact ev, r⟩
  · obtain ⟨l, a1, _, a2⟩ := Source.make_eq hs
    obtain ⟨m, b1, _, b2⟩ := Source.make_eq ht
    simp only [Prod.mk.injEq] at e
    obtain ⟨c1, c2, c3⟩ := e
    rw [a1, b1] at c1
    cases c1
    simp only [a2, b2, c2, c3]
  · obtain ⟨l, a1, _, a2⟩ := Source.make_eq hs
    obtain ⟨m, b1, _, b2⟩ := Source.make_eq ht
    rw [a2] at e1; rw [b2] at e2
    obtain ⟨rfl, c2, c3⟩ := rs_determined e1 e2
    simp only [a1, b1, c2, c3]

theorem buildOver_eq (g : Nat) (l : List Bool) (a b : Bool) (hl : l ≠ []) :
    BpVector.buildOver g (BitVector.ofRange l) a b = BpVector.build (BitVector.ofRange l) a b := by
  obtain ⟨rs, e, _⟩ := RSBitVector.build_inv l a b
  have s := RSBitVector.build_shape e
  have : 0 < l.length := List.length_pos_iff.2 hl
  unfold BpVector.buildOver BpVector.build
  rw [e, bind_pure_some, bind_pure_some, if_neg (by rw [s.bv, (BitVector.ofRange_rep l).size]; omega)]

theorem buildOver_nil (g : Nat) (a b : Bool) :
    ∃ rs, RSBitVector.build (BitVector.ofRange []) a b = some rs ∧ BpVector.buildOver g (BitVector.ofRange []) a b = some ⟨rs, g, [], []⟩ := by
  obtain ⟨rs, e, _⟩ := RSBitVector.build_inv [] a b
  have s := RSBitVector.build_shape e
  refine ⟨rs, e, ?_⟩
  unfold BpVector.buildOver
  rw [e, bind_pure_some, if_pos (by rw [s.bv]; rfl)]
  rfl

theorem buildOver_rs {g : Nat} {l : List Bool} {a b : Bool} {x : BpVector} (e : BpVector.buildOver g (BitVector.ofRange l) a b = some x) :
    RSBitVector.build (BitVector.ofRange l) a b = some x.rs := by
  by_cases hl : l = []
  · subst hl
    obtain ⟨rs, e1, e2⟩ := buildOver_nil g a b
    rw [e2] at e
    cases e
    exact e1
  · rw [buildOver_eq g l a b hl] at e
    unfold BpVector.build at e
    simp only [Option.bind_eq_bind, Option.bind_eq_some_iff] at e
    obtain ⟨rs, er, em⟩ := e
    rw [(BpVector.buildMinTree_shape em).rsEq, er]

/-- a `bp_vector` made in memory where the word at the place of `m_internal_nodes` holds `old` -/
structure Spec.BpArgs extends Args where
  old : Nat

/-- **C118**: the image of a `bp_vector` over a balanced sequence depends on its bits and the hints asked for, and if it is empty on
what was in the memory before -/
theorem C118_bp_vector : Reproducible Codec.bpVector (fun i : BpArgs => i.src.Ok (2^31) ∧ (∀ l, i.src.bits = some l → Bal l) ∧ i.old < 2^64)
    (fun i => i.src.make.bind fun v => BpVector.buildOver i.old v i.hints i.hints0)
    (fun i => (i.src.bits, i.hints, i.hints0, if i.src.bits = some [] then i.old else 0)) := by
  refine reproducible_of (fun s h => ?_) (fun s t hs ht e => ?_) (fun s t x hs ht e1 e2 => ?_)
  · obtain ⟨l, e0, hl, e⟩ := Source.make_eq h.1
    by_cases hn : l = []
    · subst hn
      obtain ⟨rs, e1, e2⟩ := buildOver_nil s.old s.hints s.hints0
      refine ⟨_, by rw [e]; exact e2, Codec.bpVector_lawful.restores _ ?_⟩
      exact ⟨Codec.rsBitVector_fits (RSBitVector.build_shape e1) (by decide), h.2.2, ⟨by show 0 < 2^60; decide, by simp⟩, ⟨by show 0 < 2^60; decide, by simp⟩⟩
    · obtain ⟨v, ev, r⟩ := C58_bp_vector l s.hints s.hints0 (h.2.1 l e0) hl
      exact ⟨v, by rw [e]; exact (buildOver_eq _ _ _ _ hn).trans ev, r⟩
  · obtain ⟨l, a1, _, a2⟩ := Source.make_eq hs.1
    obtain ⟨m, b1, _, b2⟩ := Source.make_eq ht.1
    simp only [Prod.mk.injEq] at e
    obtain ⟨c1, c2, c3, c4⟩ := e
    rw [a1, b1] at c1
    cases c1
    simp only [a2, b2, c2, c3, Option.bind_some]
    by_cases hn : l = []
    · subst hn
      rw [a1, b1, if_pos rfl, if_pos rfl] at c4
      rw [c4]
    · rw [buildOver_eq _ _ _ _ hn, buildOver_eq _ _ _ _ hn]
  · obtain ⟨l, a1, _, a2⟩ := Source.make_eq hs.1
    obtain ⟨m, b1, _, b2⟩ := Source.make_eq ht.1
    rw [a2] at e1; rw [b2] at e2
    obtain ⟨rfl, c2, c3⟩ := rs_determined (buildOver_rs e1) (buildOver_rs e2)
    simp only [a1, b1, c2, c3, Prod.mk.injEq, true_and]
    by_cases hn : l = []
    · subst hn
      obtain ⟨_, e3, e4⟩ := buildOver_nil s.old s.hints s.hints0
      obtain ⟨_, e5, e6⟩ := buildOver_nil t.old t.hints t.hints0
      rw [Option.bind_some, e4] at e1
      rw [Option.bind_some, e6] at e2
      have := e1.trans e2.symm
      simp only [Option.some.injEq, BpVector.mk.injEq] at this
      rw [if_pos rfl, if_pos rfl, this.2.1]
    · rw [if_neg (by simpa using hn), if_neg (by simpa using hn)]

/-- two images of the same empty `bp_vector` that differ: 8 bytes of the image are those found in the memory -/
theorem C118_empty_bp_false : ∃ x y ox oy, BpVector.buildOver 5 (BitVector.ofRange []) false false = some x ∧
    BpVector.buildOver 6 (BitVector.ofRange []) false false = some y ∧ freeze (top Codec.bpVector "<TOP>" x) 0 = some ox ∧
    freeze (top Codec.bpVector "<TOP>" y) 0 = some oy ∧ ox.bytes ≠ oy.bytes := by
  obtain ⟨x, y, ox, oy, h1, h2, h3, h4, h5⟩ := C118_bp_vector ⟨⟨.range [], false, false⟩, 5⟩ ⟨⟨.range [], false, false⟩, 6⟩
    ⟨by show 0 < 2^31; decide, by rintro l ⟨⟩; exact Bal.nil, by decide⟩ ⟨by show 0 < 2^31; decide, by rintro l ⟨⟩; exact Bal.nil, by decide⟩ "<TOP>" 0
  refine ⟨x, y, ox, oy, h1, h2, h3, h4, fun h => ?_⟩
  have := h5.1 h
  simp [Source.bits] at this

/-! ## sequences of integers -/

/-- where an `elias_fano` comes from: values pushed into a builder made for their number, or a bitmap -/
inductive Spec.FanoSource
  | values (n : Word) (xs : List Word)
  | bitmap (p : Prog)

/-- the universe and the values it should hold; for a bitmap its size and the positions of the ones -/
def Spec.FanoSource.content : FanoSource → Option (Nat × List Nat)
  | .values n xs => some (n.toNat, xs.map BitVec.toNat)
  | .bitmap p => p.spec.map fun l => (l.length, (List.range l.length).filter fun i => l.getD i false)

/-- a nonempty increasing sequence within the universe, or a bitmap with at least one one -/
def Spec.FanoSource.Ok : FanoSource → Prop
  | .values n xs => xs.Pairwise (· ≤ ·) ∧ (∀ x ∈ xs, x ≤ n) ∧ xs ≠ [] ∧ xs.length < 2^54
  | .bitmap p => p.ReserveAligned ∧ ∃ l, p.spec = some l ∧ true ∈ l ∧ l.length < 2^54

/-- `elias_fano.hpp:15-38,75-78` and `elias_fano.hpp:52-73` -/
def Spec.FanoSource.make (wr : Bool) : FanoSource → Option EliasFano
  | .values n xs => EliasFano.ofSeq n xs.length xs wr
  | .bitmap p => (Builder.run p).bind fun b => EliasFano.ofBitmap b wr

theorem ofBitmap_eq_ofSeq {b : Builder} {l : List Bool} (hi : Inv b l) (hl : l.length < 2^62) (wr : Bool) :
    EliasFano.ofBitmap b wr = EliasFano.ofSeq (BitVec.ofNat 64 l.length) (EliasFano.onesW l).length (EliasFano.onesW l) wr := by
  obtain ⟨v, ev, hv⟩ := BitVector.ofBuilder_rep b l hi
  unfold EliasFano.ofBitmap EliasFano.ofSeq
  rw [ev, bind_pure_some]
  simp only []
  rw [hv.size, EliasFano.sum_popcount_rep hv, EliasFano.onesW_length]
  cases EFBuilder.new (BitVec.ofNat 64 l.length) (l.count true) with
  | none => rfl
  | some b0 =>
    rw [bind_pure_some, bind_pure_some, EliasFano.fillLoop_eq hv _ 0 b0 (by rw [cnt_zero, count_eq_cnt]; omega) (by omega)]
    rfl

theorem onesW_storable (l : List Bool) (hl : l.length < 2^54) (ht : true ∈ l) :
    Storable (BitVec.ofNat 64 l.length) (EliasFano.onesW l).length (EliasFano.onesW l) := by
  have hget := fun k hk => EliasFano.onesW_get l k hk (by omega)
  have hn : (BitVec.ofNat 64 l.length).toNat = l.length := by
    rw [BitVec.toNat_ofNat, Nat.mod_eq_of_lt (by omega)]
  have hc : l.count true ≤ l.length := List.count_le_length
  have hp : 0 < l.count true := List.count_pos_iff.2 ht
  refine ⟨?_, ?_, Nat.le_refl _, by rw [EliasFano.onesW_length]; omega, by rw [EliasFano.onesW_length]; omega⟩
  · rw [List.pairwise_iff_getElem]
    intro i j hi hj hij
    obtain ⟨a1, a2, a3⟩ := hget i hi
    obtain ⟨c1, c2, c3⟩ := hget j hj
    apply BitVec.le_def.2
    rcases Nat.lt_or_ge (EliasFano.onesW l)[j].toNat (EliasFano.onesW l)[i].toNat with c | c
    · have := cnt_mono (bitFn l) (Nat.le_of_lt c); omega
    · exact c
  · intro y hy
    obtain ⟨k, hk, rfl⟩ := List.getElem_of_mem hy
    have := (hget k hk).1
    apply BitVec.le_def.2; rw [hn]; omega

theorem onesW_toNat (l : List Bool) (hl : l.length < 2^54) :
    (EliasFano.onesW l).map BitVec.toNat = (List.range l.length).filter fun i => l.getD i false := by
  unfold EliasFano.onesW
  rw [List.map_map, onesIn, Nat.sub_zero, ← List.range_eq_range']
  conv_rhs => rw [← List.map_id ((List.range l.length).filter fun i => l.getD i false)]
  apply List.map_congr_left
  intro x hx
  have := List.mem_range.1 (List.mem_filter.1 hx).1
  simp only [Function.comp, BitVec.toNat_ofNat, id]
  omega

theorem FanoSource.make_eq {s : FanoSource} (h : s.Ok) (wr : Bool) : ∃ n xs, s.make wr = EliasFano.ofSeq n xs.length xs wr ∧ Storable n xs.length xs ∧
    0 < xs.length ∧ xs.length < 2^54 ∧ s.content = some (n.toNat, xs.map BitVec.toNat) := by
  cases s with
  | values n xs =>
    obtain ⟨h1, h2, h3, h4⟩ := h
    have := List.length_pos_iff.2 h3
    exact ⟨n, xs, rfl, ⟨h1, h2, Nat.le_refl _, by omega, by omega⟩, this, h4, rfl⟩
  | bitmap p =>
    obtain ⟨hr, l, e, ht, hl⟩ := h
    obtain ⟨b, eb, i⟩ := Builder.run_inv p l e hr
    have hc : l.count true ≤ l.length := List.count_le_length
    have hp : 0 < l.count true := List.count_pos_iff.2 ht
    refine ⟨BitVec.ofNat 64 l.length, EliasFano.onesW l, ?_, onesW_storable l hl ht, by rw [EliasFano.onesW_length]; exact hp,
      by rw [EliasFano.onesW_length]; omega, ?_⟩
    · rw [FanoSource.make, eb, Option.bind_some, ofBitmap_eq_ofSeq i (by omega)]
    · rw [FanoSource.content, e, Option.map_some, onesW_toNat l hl, BitVec.toNat_ofNat, Nat.mod_eq_of_lt (by omega)]

theorem map_toNat_inj {xs ys : List Word} (h : xs.map BitVec.toNat = ys.map BitVec.toNat) : xs = ys := by
  induction xs generalizing ys with
  | nil => cases ys with
    | nil => rfl
    | cons y ys => cases h
  | cons x xs ih => cases ys with
    | nil => cases h
    | cons y ys =>
      rw [List.map_cons, List.map_cons, List.cons.injEq] at h
      rw [BitVec.eq_of_toNat_eq h.1, ih h.2]

theorem eq_of_getElem? {α : Type} {xs ys : List α} (h1 : xs.length = ys.length) (h : ∀ i, i < xs.length → xs[i]? = ys[i]?) : xs = ys := by
  apply List.ext_getElem? fun i => ?_
  rcases Nat.lt_or_ge i xs.length with hi | hi
  · exact h i hi
  · rw [List.getElem?_eq_none hi, List.getElem?_eq_none (by omega)]

/-- **C118**: the image of an `elias_fano` depends on the universe and the values, whether they were pushed or read off a bitmap -/
theorem C118_elias_fano (wr : Bool) : Reproducible Codec.eliasFano FanoSource.Ok (FanoSource.make wr) FanoSource.content := by
  refine reproducible_of (fun s h => ?_) (fun s t hs ht e => ?_) (fun s t x hs ht e1 e2 => ?_)
  · obtain ⟨n, xs, e, st, h0, h1, _⟩ := FanoSource.make_eq h wr
    rw [e]
    exact C58_elias_fano n xs.length xs st h0 h1 wr
  · obtain ⟨n, xs, a1, _, _, _, a2⟩ := FanoSource.make_eq hs wr
    obtain ⟨n', ys, b1, _, _, _, b2⟩ := FanoSource.make_eq ht wr
    rw [a2, b2] at e
    simp only [Option.some.injEq, Prod.mk.injEq] at e
    rw [a1, b1, BitVec.eq_of_toNat_eq e.1, map_toNat_inj e.2]
  · obtain ⟨n, xs, a1, a3, _, _, a2⟩ := FanoSource.make_eq hs wr
    obtain ⟨n', ys, b1, b3, _, _, b2⟩ := FanoSource.make_eq ht wr
    rw [a1] at e1; rw [b1] at e2
    obtain ⟨ef, f1, f2, f3, f4⟩ := C20_select n xs.length xs a3 wr
    obtain ⟨ef', g1, g2, g3, g4⟩ := C20_select n' ys.length ys b3 wr
    rw [e1] at f1; rw [e2] at g1
    cases f1; cases g1
    rw [a2, b2, f2.symm.trans g2, eq_of_getElem? (f3.symm.trans g3) fun i _ => (f4 (fun _ _ => 0) i).symm.trans (g4 (fun _ _ => 0) i)]

/-- for a constructor from a list, it is enough that the list can be recovered -/
theorem reproducible_list {α β : Type} {c : Codec β} {ok : List α → Prop} {build : List α → Option β}
    (hb : ∀ v, ok v → ∃ x, build v = some x ∧ RestoresAt c x)
    (hg : ∃ (len : β → Option Nat) (get : β → Nat → Option α), ∀ v, ok v → ∃ x, build v = some x ∧ len x = some v.length ∧ ∀ i, i < v.length → get x i = v[i]?) :
    Reproducible c ok build id := by
  obtain ⟨len, get, hg⟩ := hg
  refine reproducible_of hb (fun i j _ _ e => by rw [id, id] at e; rw [e]) (fun v w x hv hw e1 e2 => ?_)
  obtain ⟨y, f1, f2, f3⟩ := hg v hv
  obtain ⟨z, g1, g2, g3⟩ := hg w hw
  rw [e1] at f1; rw [e2] at g1
  cases f1; cases g1
  have hlen : v.length = w.length := Option.some.inj (f2.symm.trans g2)
  exact eq_of_getElem? hlen fun i hi => (f3 i hi).symm.trans (g3 i (hlen ▸ hi))

/-- **C118**: the images of the lists of integers depend on the values only -/
theorem C118_lists :
    Reproducible Codec.efList (fun v : List Word => (v.map BitVec.toNat).sum < 2^64 - 1 ∧ v.length < 2^54) EFList.build id ∧
    Reproducible Codec.efCompressedList (fun v : List Word => (∀ x ∈ v, x ≠ BitVec.allOnes 64) ∧ v.length < 2^53) EFCompressedList.build id ∧
    Reproducible Codec.gammaVector (fun v : List Word => (∀ x ∈ v, x ≠ BitVec.allOnes 64) ∧ v.length < 2^53) GammaVector.build id ∧
    Reproducible Codec.gammaBitVector (fun v : List Word => (∀ x ∈ v, x.toNat < 2^64 - 2) ∧ v.length < 2^53) GammaBitVector.build id ∧
    Reproducible Codec.nibbleVector (fun v : List Nat => (∀ x ∈ v, x < 16) ∧ v.length + 1 < 2^60) NibbleVector.build id := by
  refine ⟨reproducible_list (fun v h => C58_elias_fano_list v h.1 h.2) ⟨fun x => some x.size, fun x i => x.get (fun _ _ => 0) i, fun v h => ?_⟩,
    reproducible_list (fun v h => C58_elias_fano_compressed_list v h.1 h.2) ⟨fun x => x.size, fun x i => x.get (fun _ _ => 0) i, fun v h => ?_⟩,
    reproducible_list (fun v h => C58_gamma_vector v h.1 h.2) ⟨fun x => x.size, fun x i => GammaVector.get (fun _ _ => 0) x i, fun v h => ?_⟩,
    reproducible_list (fun v h => C58_gamma_bit_vector v h.1 h.2) ⟨fun x => x.size, fun x i => GammaBitVector.get (fun _ _ => 0) x i, fun v h => ?_⟩,
    reproducible_list (fun v h => C58_nibble_vector v h.1 h.2) ⟨fun x => some x.size, fun x i => (NibbleVector.get x i).map BitVec.toNat, fun v h => ?_⟩⟩
  · obtain ⟨t, e, h1, _, h2⟩ := C26_list v h.1 (by have := h.2; omega)
    exact ⟨t, e, congrArg some h1, h2 _⟩
  · obtain ⟨t, e, h1, h2⟩ := C27_compressed_list v h.1 (by have := h.2; omega)
    exact ⟨t, e, h1, h2 _⟩
  · obtain ⟨t, e, h1, h2⟩ := C28_gamma_vector v h.1
    exact ⟨t, e, h1, h2 _⟩
  · obtain ⟨t, e, h1, h2⟩ := C29_gamma_bit_vector v h.1
    exact ⟨t, e, h1, h2 _⟩
  · obtain ⟨t, e, h1, h2, _⟩ := C45_nibble_vector v h.1
    refine ⟨t, e, congrArg some h1, fun i hi => ?_⟩
    obtain ⟨b, b1, b2⟩ := h2 i hi
    dsimp only
    rw [b1, Option.map_some, b2, List.getElem?_eq_getElem hi]

/-- **C118**: the image of a `topk_vector` of integers depends on its entries -/
theorem C118_topk_vector : Reproducible (Codec.topK (Codec.vu64 "m_v")) (fun v : List Nat => v.length < 2^30 - 1 ∧ ∀ x ∈ v, x < 2^64)
    (TopK.build ⟨fun a b => decide (a < b), fun a b => decide (a = b)⟩) id := by
  refine reproducible_of (fun v h => C58_topk_vector v h.1 h.2) (fun i j _ _ e => by rw [id, id] at e; rw [e]) (fun v w x hv hw e1 e2 => ?_)
  unfold TopK.build at e1 e2
  simp only [Option.bind_eq_bind, Option.bind_eq_some_iff, Option.pure_def, Option.some.injEq] at e1 e2
  obtain ⟨t, _, e1⟩ := e1
  obtain ⟨t', _, e2⟩ := e2
  rw [← e2] at e1
  exact congrArg TopK.v e1

/-- **C118**: the images of two `cartesian_tree`s over the same number of entries, under strict weak orders, are the same if and only
if every range has its leftmost minimum at the same place -/
theorem C118_cartesian_tree {α β : Type} (comp : α → α → Bool) (comp' : β → β → Bool) (ho : StrictWeak comp) (ho' : StrictWeak comp')
    (v : List α) (w : List β) (hl : v.length = w.length) (hv : v.length < 2^30 - 1) (name : String) (flags : Nat) :
    ∃ x y ox oy, CartesianTree.build comp v = some x ∧ CartesianTree.build comp' w = some y ∧
      freeze (top Codec.cartesianTree name x) flags = some ox ∧ freeze (top Codec.cartesianTree name y) flags = some oy ∧
      (ox.bytes = oy.bytes ↔ ∀ a b m, a ≤ b → b < v.length → (IsLeftmostMin comp v a b m ↔ IsLeftmostMin comp' w a b m)) := by
  have h := reproducible_of (c := Codec.cartesianTree) (ι := Bool) (ok := fun _ => True)
    (build := fun i => if i then CartesianTree.build comp v else CartesianTree.build comp' w)
    (cont := fun i => if i then CartesianTree.build comp v else CartesianTree.build comp' w)
    (fun i _ => by
      cases i
      · exact C58_cartesian_tree comp' w (by omega)
      · exact C58_cartesian_tree comp v hv)
    (fun i j _ _ e => e) (fun i j x _ _ e1 e2 => e1.trans e2.symm)
  obtain ⟨x, y, ox, oy, h1, h2, h3, h4, h5⟩ := h true false trivial trivial name flags
  exact ⟨x, y, ox, oy, h1, h2, h3, h4, h5.trans (C62_canonical comp comp' ho ho' v w hl hv)⟩

/-! ## instances -/

/-- three different ways to the same bits -/
example : (Source.history (.reverse (.pushBack (.new 70 true) false))).Ok (2^60) ∧ (Source.history (.set (.oneExtend (.new 64 true) 7) 0 false)).Ok (2^60) ∧
    (Source.range (false :: List.replicate 70 true)).Ok (2^60) ∧
    (Source.history (.reverse (.pushBack (.new 70 true) false))).bits = (Source.range (false :: List.replicate 70 true)).bits ∧
    (Source.history (.set (.oneExtend (.new 64 true) 7) 0 false)).bits = (Source.range (false :: List.replicate 70 true)).bits :=
  ⟨⟨trivial, _, rfl, by decide +kernel⟩, ⟨trivial, _, rfl, by decide +kernel⟩, by show _ < _; decide +kernel, by decide +kernel, by decide +kernel⟩

/-- a bitmap and the values pushed for it -/
example : (FanoSource.bitmap (.set (.set (.new 10 false) 3 true) 8 true)).Ok ∧ (FanoSource.values 10 [3, 8]).Ok ∧
    (FanoSource.bitmap (.set (.set (.new 10 false) 3 true) 8 true)).content = (FanoSource.values 10 [3, 8]).content :=
  ⟨⟨trivial, [false, false, false, true, false, false, false, false, true, false], rfl, by simp, by simp⟩,
    ⟨by simp, by simp, by simp, by simp⟩, rfl⟩

end Succinct
