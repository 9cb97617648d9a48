import Verif.Lemmas.MachineEnum
import Verif.Props.EliasFano

/-! # The 64-bit `select_enumerator`, Elias–Fano lists and gamma vectors simulate the models over natural numbers -/
namespace Succinct
namespace Machine
open Broadword
open Succinct.RSBitVector (bind_pure_some)

/-! ## `select_enumerator` -/
namespace EliasFano

theorem sel_W {ef : Succinct.EliasFano} (s : Small ef) (i : Nat) :
    Le (Darray.select false (enc ef).d1 (enc ef).high (W i)) (Succinct.Darray.select false ef.d1 ef.high i) W := by
  intro r h
  have hp := s.p1
  have hi : i < ef.d1.positions := by
    unfold Succinct.Darray.select at h
    by_cases hi : i < ef.d1.positions
    · exact hi
    · rw [assertP_none hi] at h; cases h
  rw [select1_eq s, W_toNat i (by omega), h]; rfl

namespace SelEnum

def enc (e : Succinct.EliasFano.SelEnum) : SelEnum := ⟨W e.i, e.high.map UEnum.enc, e.lowBuf, W e.chunksAvail⟩

variable {ef : Succinct.EliasFano} (s : Small ef)
include s

theorem l0 : (EliasFano.enc ef).l ≠ 0 ↔ ef.l ≠ 0 := by
  have := s.lb
  exact not_congr (W_inj ef.l 0 (by omega) (by decide))

theorem mask_W : EFBuilder.lowMask (EliasFano.enc ef).l = Succinct.EFBuilder.lowMask ef.l :=
  EFBuilder.lowMask_eq _ (by have := s.lb; omega)

theorem l_toNat : (EliasFano.enc ef).l.toNat = ef.l := W_toNat _ (by have := s.lb; omega)

theorem new_le (i : Nat) : Le (new (EliasFano.enc ef) (W i)) (Succinct.EliasFano.SelEnum.new ef i) enc ∧
    ∀ e, Succinct.EliasFano.SelEnum.new ef i = some e → e.chunksAvail < 2^64 := by
  have hp := s.p1
  have hlb := s.lb
  have hn : (EliasFano.enc ef).numOnes = 0 ↔ ef.numOnes = 0 := W_inj ef.d1.positions 0 (by omega) (by decide)
  have ha : (if (EliasFano.enc ef).l ≠ 0 then 0 else (EliasFano.enc ef).numOnes) = W (if ef.l ≠ 0 then 0 else ef.numOnes) := by
    simp only [l0 s]
    split <;> rfl
  have hb : (if ef.l ≠ 0 then 0 else ef.numOnes) < 2^64 := by
    split
    · decide
    · exact Nat.lt_of_le_of_lt hp (by decide)
  unfold new Succinct.EliasFano.SelEnum.new
  simp only [mask_W s, hn, ha]
  generalize (if ef.l ≠ 0 then 0 else ef.numOnes) = av at hb ⊢
  constructor
  · refine (Le.refl _).bind fun _ _ => ?_
    split
    · exact .pure rfl
    · refine (sel_W s i).bind fun pos _ => ?_
      refine (UEnum.new_le (BitVector.len_le s.high) pos).bind fun u _ => ?_
      refine Le.assert (fun h => ?_) fun _ => .pure rfl
      exact (W_lt _ 64 (by omega) (by decide)).2 h
  · intro e h
    split at h
    · simp only [Option.bind_eq_bind, Option.bind_eq_some_iff] at h
      obtain ⟨_, _, h⟩ := h
      obtain rfl := Option.some.inj h
      exact hb
    · simp only [Option.bind_eq_bind, Option.bind_eq_some_iff] at h
      obtain ⟨_, _, pos, _, u, _, _, _, h⟩ := h
      obtain rfl := Option.some.inj h
      exact hb

theorem refill_le (e : Succinct.EliasFano.SelEnum) (he : e.chunksAvail < 2^64) :
    Le (refill (EliasFano.enc ef) (enc e)) (Succinct.EliasFano.SelEnum.refill ef e) (fun r => (r.1, W r.2)) ∧
    ∀ r, Succinct.EliasFano.SelEnum.refill ef e = some r → r.2 < 2^64 := by
  have hlb := s.lb
  have hc : (enc e).chunksAvail = 0 ↔ e.chunksAvail = 0 := W_inj e.chunksAvail 0 he (by decide)
  have h64 : (64 / (EliasFano.enc ef).l) = W (64 / ef.l) := (W_div 64 ef.l (by decide) (by omega)).symm
  have hd : (if (EliasFano.enc ef).l ≠ 0 then 64 / (EliasFano.enc ef).l else 0) = W (if ef.l ≠ 0 then 64 / ef.l else 0) := by
    simp only [l0 s, h64]
    split <;> rfl
  have hdl : (if ef.l ≠ 0 then 64 / ef.l else 0) ≤ 64 := by
    split
    · exact Nat.div_le_self _ _
    · decide
  unfold refill Succinct.EliasFano.SelEnum.refill
  simp only [hc, hd]
  generalize (if ef.l ≠ 0 then 64 / ef.l else 0) = c at hdl ⊢
  constructor
  · split
    · have := BitVector.getWord_W s.low (e.i * ef.l)
      rw [W_mul] at this
      refine Le.bind this fun w _ => ?_
      refine Le.sub fun h => ?_
      apply Le.pure
      show (_, _) = (_, _)
      rw [W_sub _ _ h]; rfl
    · rename_i h
      apply Le.pure
      show (_, _) = (_, _)
      rw [W_sub _ _ (by omega)]; rfl
  · intro r h
    split at h
    · simp only [Option.bind_eq_bind, Option.bind_eq_some_iff] at h
      obtain ⟨w, _, a, h1, h⟩ := h
      obtain ⟨_, rfl⟩ := Succinct.Darray.subU_eq_some h1
      obtain rfl := Option.some.inj h
      show _ - 1 < _
      omega
    · obtain rfl := Option.some.inj h
      show _ - 1 < _
      omega

theorem next_le (e : Succinct.EliasFano.SelEnum) (he : e.chunksAvail < 2^64) :
    Le (next (EliasFano.enc ef) (enc e)) (Succinct.EliasFano.SelEnum.next ef e) (fun r => (r.1, enc r.2)) ∧
    ∀ r, Succinct.EliasFano.SelEnum.next ef e = some r → r.2.chunksAvail < 2^64 := by
  obtain ⟨k1, k2⟩ := refill_le s e he
  constructor
  · unfold next Succinct.EliasFano.SelEnum.next
    refine k1.bind fun a ha => ?_
    obtain ⟨buf, avail⟩ := a
    refine Le.bind (e := UEnum.enc) (fun u hu => by show e.high.map _ = _; rw [hu]; rfl) fun u _ => ?_
    refine (UEnum.next_le (BitVector.len_le s.high) u).bind fun a _ => ?_
    obtain ⟨high, u'⟩ := a
    refine (sel_W s e.i).bind fun p _ => ?_
    refine Le.assert (fun h => by show W high = W p; rw [h]) fun _ => ?_
    simp only [mask_W s, l_toNat s]
    refine (Le.refl _).bind fun mask _ => ?_
    refine Le.sub fun h => ?_
    rw [show W high - (enc e).i = W (high - e.i) from (W_sub _ _ h).symm]
    refine (Le.refl _).bind fun x _ => ?_
    refine (Le.refl _).bind fun y _ => ?_
    apply Le.pure
    show (_, SelEnum.mk _ _ _ _) = (_, SelEnum.mk _ _ _ _)
    rw [W_add]; rfl
  · intro r h
    unfold Succinct.EliasFano.SelEnum.next at h
    simp only [Option.bind_eq_bind, Option.bind_eq_some_iff] at h
    obtain ⟨⟨buf, avail⟩, h1, u, _, ⟨high, u'⟩, _, p, _, _, _, m, _, d, _, x, _, b, _, h⟩ := h
    obtain rfl := Option.some.inj h
    exact k2 _ h1

theorem run_le (k : Nat) : ∀ (e : Succinct.EliasFano.SelEnum), e.chunksAvail < 2^64 →
    Le (run (EliasFano.enc ef) k (enc e)) (Succinct.EliasFano.SelEnum.run ef k e) id := by
  induction k with
  | zero => intro e _; exact .pure rfl
  | succ k ih =>
    intro e he
    obtain ⟨k1, k2⟩ := next_le s e he
    unfold run Succinct.EliasFano.SelEnum.run
    refine k1.bind fun a ha => ?_
    obtain ⟨x, e'⟩ := a
    exact (ih e' (k2 _ ha)).bind fun xs _ => .pure rfl

end SelEnum
end EliasFano

/-! ## `elias_fano_list` -/
namespace EFList
open Succinct.EFList ( psums_toNat sum_take_mono sum_take_le foldl_add_toNat)

theorem pushLoop_eq (xs : List Word) (base : Word) (b : EFBuilder) :
    pushLoop xs base b = (Succinct.EFList.psums base xs).foldlM EFBuilder.pushBack b := by
  induction xs generalizing base b with
  | nil => rfl
  | cons x xs ih =>
    unfold pushLoop Succinct.EFList.psums
    rw [List.foldlM_cons]
    simp only []
    congr 1
    funext b'
    exact ih _ _

theorem storable (xs : List Word) (hs : (xs.map BitVec.toNat).sum < 2^64 - 1) (hl : xs.length ≤ 2^62) :
    Storable (xs.foldl (· + ·) 0 + 1) xs.length (Succinct.EFList.psums 0 xs) := by
  have hz : (0 : Word).toNat = 0 := rfl
  have hfold := foldl_add_toNat xs 0 (by rw [hz]; omega)
  have hp := fun k hk => psums_toNat 0 xs (by rw [hz]; omega) k hk
  rw [hz, Nat.zero_add] at hfold
  have hn : (xs.foldl (· + ·) 0 + 1 : Word).toNat = (xs.map BitVec.toNat).sum + 1 := by
    rw [BitVec.toNat_add, hfold, show (1 : Word).toNat = 1 from rfl, Nat.mod_eq_of_lt (by omega)]
  refine ⟨?_, ?_, by rw [Succinct.EFList.psums_length], hl, ?_⟩
  · rw [List.pairwise_iff_getElem]
    intro i j hi hj hij
    rw [Succinct.EFList.psums_length] at hi hj
    apply BitVec.le_def.2
    rw [hp i hi, hp j hj]
    have := sum_take_mono (xs.map BitVec.toNat) (i+1) (j+1) (by omega)
    omega
  · intro y hy
    obtain ⟨k, hk, rfl⟩ := List.getElem_of_mem hy
    rw [Succinct.EFList.psums_length] at hk
    apply BitVec.le_def.2
    rw [hp k hk, hn, hz]
    have := sum_take_le (xs.map BitVec.toNat) (k+1)
    omega
  · intro h; have := List.eq_nil_of_length_eq_zero h; subst this; decide

theorem fold_count (xs : List Word) (s n : Word) :
    xs.foldl (fun sn x => (sn.1 + x, sn.2 + 1)) ((s, n) : Word × Word) = (xs.foldl (· + ·) s, n + W xs.length) := by
  induction xs generalizing s n with
  | nil => simp
  | cons x xs ih =>
    rw [List.foldl_cons, ih, List.foldl_cons, List.length_cons, Nat.add_comm xs.length 1, W_add, BitVec.add_assoc]; rfl

/-- the 64-bit code builds the list that the model over natural numbers builds -/
theorem build_eq (xs : List Word) (hs : (xs.map BitVec.toNat).sum < 2^64 - 1) (hl : xs.length ≤ 2^61) :
    ∃ v hb, Succinct.EFList.build xs = some v ∧ v.ef.Good (xs.foldl (· + ·) 0 + 1) (Succinct.EFList.psums 0 xs) hb ∧
      build xs = some (EliasFano.enc v.ef) ∧ EliasFano.Small v.ef := by
  obtain ⟨ef, hb, e, g, _, m, s⟩ := EliasFano.ofSeq_eq _ _ _ (storable xs hs (by omega)) hl (by
    intro h; have := List.eq_nil_of_length_eq_zero h; subst this; decide) false
  refine ⟨⟨ef⟩, hb, ?_, g, ?_, s⟩
  · unfold Succinct.EliasFano.ofSeq at e
    simp only [Option.bind_eq_bind, Option.bind_eq_some_iff] at e
    obtain ⟨b0, e0, b1, e1, e2⟩ := e
    unfold Succinct.EFList.build
    simp only []
    rw [e0, bind_pure_some, Succinct.EFList.pushLoop_eq, e1, bind_pure_some, e2, bind_pure_some]; rfl
  · unfold build
    rw [fold_count]
    simp only [pushLoop_eq]
    rw [show (0 : Word) + W xs.length = W xs.length from BitVec.zero_add _]
    exact m

end EFList

/-! ## `elias_fano_compressed_list` -/
namespace EFCompressedList
open Succinct.EFCompressedList (code clen clen_spec clen_lt code_length offs offs_length allOffs_get total_le take_total_le take_total_mono)

def enc (v : Succinct.EFCompressedList) : EFCompressedList := ⟨EliasFano.enc v.ef, BitVector.enc v.bits⟩

theorem sizeLoop_eq (xs : List Word) (hx : ∀ x ∈ xs, x ≠ BitVec.allOnes 64) (s n : Word) :
    sizeLoop xs s n = some (s + W (xs.flatMap code).length, n + W xs.length) := by
  induction xs generalizing s n with
  | nil => unfold sizeLoop; simp
  | cons x xs ih =>
    unfold sizeLoop
    rw [(clen_spec x (hx x (by simp))).1, bind_pure_some, ih (fun y hy => hx y (by simp [hy])), List.flatMap_cons, List.length_append,
      code_length, List.length_cons, Nat.add_comm xs.length 1, W_add, W_add, BitVec.add_assoc, BitVec.add_assoc]; rfl

theorem pushLoop_eq (xs : List Word) (hx : ∀ x ∈ xs, x ≠ BitVec.allOnes 64) (bits : Succinct.Builder) (l : List Bool) (hi : Succinct.Inv bits l)
    (b : EFBuilder) : ∃ bits', Succinct.Inv bits' (l ++ xs.flatMap code) ∧
      (∀ c, Succinct.EFCompressedList.pushLoop xs bits c = ((offs l.length xs).foldlM Succinct.EFBuilder.pushBack c).map fun c' => (bits', c')) ∧
      pushLoop xs (Builder.enc bits) b = ((offs l.length xs).foldlM EFBuilder.pushBack b).map fun b' => (Builder.enc bits', b') := by
  induction xs generalizing bits l b with
  | nil => exact ⟨bits, by simpa using hi, fun c => rfl, rfl⟩
  | cons x xs ih =>
    obtain ⟨e, hm⟩ := clen_spec x (hx x (by simp))
    obtain ⟨b1, e1, i1⟩ := Succinct.Builder.appendBits_inv bits l hi _ (clen x) (tail_fits _ _ hm)
    have hlen : b1.size = l.length + clen x := by rw [i1.size]; simp
    have hcl := hm.1
    have m1 : Builder.appendBits (Builder.enc bits) ((x + 1) ^^^ ((1 : Word) <<< clen x)) (W (clen x)) = some (Builder.enc b1) := by
      rw [Builder.appendBits_eq _ _ _ (by omega), e1]; rfl
    have key : ∀ b', ∃ bits', Succinct.Inv bits' (l ++ Spec.lowBits ((x + 1) ^^^ ((1 : Word) <<< clen x)) (clen x) ++ xs.flatMap code) ∧
        (∀ c, Succinct.EFCompressedList.pushLoop xs b1 c =
          ((offs (l.length + clen x) xs).foldlM Succinct.EFBuilder.pushBack c).map fun c' => (bits', c')) ∧
        pushLoop xs (Builder.enc b1) b' = ((offs (l.length + clen x) xs).foldlM EFBuilder.pushBack b').map fun b'' => (Builder.enc bits', b'') := by
      intro b'
      have := ih (fun y hy => hx y (by simp [hy])) b1 _ i1 b'
      rwa [List.length_append, lowBits_length] at this
    have hc : ∀ bits', (∀ c, Succinct.EFCompressedList.pushLoop xs b1 c =
          ((offs (l.length + clen x) xs).foldlM Succinct.EFBuilder.pushBack c).map fun c' => (bits', c')) →
        ∀ c, Succinct.EFCompressedList.pushLoop (x :: xs) bits c =
          ((offs l.length (x :: xs)).foldlM Succinct.EFBuilder.pushBack c).map fun c' => (bits', c') := by
      intro bits' h c
      unfold Succinct.EFCompressedList.pushLoop
      simp only []
      rw [e, bind_pure_some, shl_eq _ _ hm.1, bind_pure_some, e1, bind_pure_some, hlen]
      simp only [offs, List.foldlM_cons]
      cases hp : Succinct.EFBuilder.pushBack c (BitVec.ofNat 64 (l.length + clen x)) with
      | none => rfl
      | some c' => rw [bind_pure_some, bind_pure_some, h]
    have hstep : ∀ f, pushLoop (x :: xs) (Builder.enc bits) b = f →
        (EFBuilder.pushBack b (W (l.length + clen x)) >>= fun b' => pushLoop xs (Builder.enc b1) b') = f := by
      intro f h
      rw [← h]
      conv_rhs => unfold pushLoop
      simp only []
      rw [e, bind_pure_some, shl_eq _ _ hm.1, bind_pure_some, m1, bind_pure_some]
      show _ = (EFBuilder.pushBack b (W b1.size) >>= _)
      rw [hlen]
    have hstep' := hstep _ rfl
    rw [← hstep']
    simp only [offs, List.foldlM_cons]
    cases hp : EFBuilder.pushBack b (W (l.length + clen x)) with
    | none =>
      obtain ⟨b2, h2, h3, _⟩ := key b
      exact ⟨b2, by rw [List.flatMap_cons, ← List.append_assoc]; exact h2, hc b2 h3, rfl⟩
    | some b' =>
      obtain ⟨b2, h2, h3, h4⟩ := key b'
      refine ⟨b2, by rw [List.flatMap_cons, ← List.append_assoc]; exact h2, hc b2 h3, ?_⟩
      rw [bind_pure_some, h4, bind_pure_some]

theorem storable (xs : List Word) (hl : xs.length < 2^57) :
    Storable (W (xs.flatMap code).length + 1) (xs.length + 1) (0#64 :: offs 0 xs) := by
  have ht := total_le xs
  have hn : (W (xs.flatMap code).length + 1).toNat = (xs.flatMap code).length + 1 := by
    rw [BitVec.toNat_add, BitVec.toNat_ofNat, show (1 : Word).toNat = 1 from rfl, Nat.mod_eq_of_lt (a := (xs.flatMap code).length) (by omega),
      Nat.mod_eq_of_lt (by omega)]
  have hv : ∀ k (hk : k < (0#64 :: offs 0 xs).length), (0#64 :: offs 0 xs)[k].toNat = ((xs.take k).flatMap code).length := by
    intro k hk
    have := take_total_le xs k
    rw [allOffs_get, BitVec.toNat_ofNat, Nat.mod_eq_of_lt (by omega)]
  refine ⟨?_, ?_, by simp [offs_length], by omega, by omega⟩
  · rw [List.pairwise_iff_getElem]
    intro i j hi hj hij
    apply BitVec.le_def.2
    rw [hv i hi, hv j hj]
    exact take_total_mono xs i j (by omega)
  · intro y hy
    obtain ⟨k, hk, rfl⟩ := List.getElem_of_mem hy
    apply BitVec.le_def.2
    rw [hv k hk, hn]
    have := take_total_le xs k
    omega

theorem build_eq (xs : List Word) (hx : ∀ x ∈ xs, x ≠ BitVec.allOnes 64) (hl : xs.length < 2^57) :
    ∃ v hb n, Succinct.EFCompressedList.build xs = some v ∧ v.ef.Good n (0#64 :: offs 0 xs) hb ∧ Rep v.bits (xs.flatMap code) ∧
      build xs = some (enc v) ∧ EliasFano.Small v.ef ∧ BitVector.Fits v.bits := by
  have ht := total_le xs
  obtain ⟨ef, hb, e, g, _, m, s⟩ := EliasFano.ofSeq_eq _ _ _ (storable xs hl) (by omega) (by omega) false
  obtain ⟨bb, eb, ib⟩ := Succinct.Builder.new_inv 0 false
  have mb : Builder.new 0 false = some (Builder.enc bb) := by
    have := Builder.new_eq 0 false (by decide)
    rw [eb] at this; exact this
  have hbs : bb.size = 0 := by rw [ib.size]; rfl
  rw [List.replicate_zero] at ib
  unfold Succinct.EliasFano.ofSeq at e
  unfold EliasFano.ofSeq at m
  simp only [Option.bind_eq_bind, Option.bind_eq_some_iff, List.foldlM_cons] at e m
  obtain ⟨b0, e0, b2, ⟨b1, e1, e2⟩, e3⟩ := e
  obtain ⟨c0, m0, c2, ⟨c1, m1, m2⟩, m3⟩ := m
  obtain ⟨b', hi', p1, p2⟩ := pushLoop_eq xs hx bb [] ib c1
  rw [List.nil_append] at hi'
  obtain ⟨v, ev, rv⟩ := Succinct.BitVector.ofBuilder_rep _ _ hi'
  have hbz := hi'.size
  have hbl := hi'.len
  have mv : BitVector.ofBuilder (Builder.enc b') = some (BitVector.enc v) := by
    rw [BitVector.ofBuilder_eq _ (by omega) (by omega), ev]; rfl
  refine ⟨⟨ef, v⟩, hb, _, ?_, g, rv, ?_, s, BitVector.Fits.of_rep rv (by omega)⟩
  · unfold Succinct.EFCompressedList.build
    rw [Succinct.EFCompressedList.sizeLoop_eq xs hx, bind_pure_some, Nat.zero_add]
    simp only []
    rw [show BitVec.ofNat 64 (xs.flatMap code).length + 1 = W (xs.flatMap code).length + 1 from rfl, e0, bind_pure_some, eb, bind_pure_some, hbs,
      e1, bind_pure_some, p1, List.length_nil, e2, Option.map_some, bind_pure_some]
    simp only []
    rw [e3, bind_pure_some, ev, bind_pure_some]; rfl
  · unfold build
    rw [sizeLoop_eq xs hx, bind_pure_some]
    simp only []
    rw [show (0 : Word) + W xs.length = W xs.length from BitVec.zero_add _, show (0 : Word) + W (xs.flatMap code).length = _ from BitVec.zero_add _,
      show W xs.length + 1 = W (xs.length + 1) from (W_add _ _).symm, m0, bind_pure_some, mb, bind_pure_some,
      show (Builder.enc bb).size = 0#64 by show W bb.size = _; rw [hbs], m1, bind_pure_some, p2, List.length_nil, m2, Option.map_some, bind_pure_some]
    simp only []
    rw [m3, bind_pure_some, mv, bind_pure_some]; rfl

end EFCompressedList

/-! ## gamma vectors -/

/-- sizes of the parts of a `darray64` -/
structure Darray64.Small (d : Succinct.Darray64) : Prop where
  fits : BitVector.Fits d.bits
  ones : d.numOnes < 2^64
  blk : ∀ x ∈ d.block, x < 2^63
  sub : ∀ x ∈ d.subblock, x < 2^63

theorem Darray64.finish (b : Succinct.Darray64Builder) (ns : List Nat) (g : Succinct.Darray64.Good b ns)
    (hl : (Spec.unary ns).length ≤ 2^63) :
    ∃ d, Succinct.Darray64.ofBuilder b = some d ∧ Darray64.ofBuilder (Darray64.encB b) = some (Darray64.enc d) ∧ Darray64.Small d := by
  obtain ⟨v, ev, hv⟩ := Succinct.BitVector.ofBuilder_rep b.bits _ g.bits
  have hf := BitVector.Fits.of_rep hv hl
  have hbs := g.bits.size
  have hbl := g.bits.len
  have hn := g.n
  have hul := unary_length ns
  have hone : ∀ i, i < ns.length → Spec.onePos ns i < 2^63 := by
    intro i hi
    obtain ⟨hq, _⟩ := List.getElem?_eq_some_iff.1 (isSelect1_onePos ns i hi).1
    omega
  have mv : BitVector.ofBuilder (Builder.enc b.bits) = some (BitVector.enc v) := by
    rw [BitVector.ofBuilder_eq _ (by omega) (by omega), ev]; rfl
  refine ⟨⟨b.nOnes, v, b.block, b.subblock⟩, by unfold Succinct.Darray64.ofBuilder; rw [ev, bind_pure_some]; rfl, ?_, hf, ?_, ?_, ?_⟩
  · unfold Darray64.ofBuilder
    rw [show (Darray64.encB b).bits = Builder.enc b.bits from rfl, mv, bind_pure_some]; rfl
  · show b.nOnes < 2^64
    omega
  · intro x hx
    obtain ⟨j, hj, rfl⟩ := List.getElem_of_mem hx
    have hj1 : j < b.block.length := hj
    have hj' : 1024 * j < ns.length := by have := g.bl; omega
    have := g.blk j hj'
    rw [List.getElem?_eq_getElem hj1] at this
    show b.block[j] < _
    rw [Option.some.inj this]; exact hone _ hj'
  · intro x hx
    obtain ⟨j, hj, rfl⟩ := List.getElem_of_mem hx
    have hj1 : j < b.subblock.length := hj
    have hj' : 64 * j < ns.length := by have := g.sl; omega
    have := g.sub j hj'
    rw [List.getElem?_eq_getElem hj1] at this
    show b.subblock[j] < _
    rw [Option.some.inj this]
    have := hone _ hj'
    omega

theorem Darray64.select_W {d : Succinct.Darray64} (s : Darray64.Small d) (i : Nat) : Le (Darray64.select (Darray64.enc d) (W i)) (d.select i) W := by
  intro r h
  have hi : i < d.numOnes := by
    unfold Succinct.Darray64.select at h
    by_cases hi : i < d.numOnes
    · exact hi
    · rw [assertP_none hi] at h; cases h
  have := s.ones
  rw [Darray64.select_eq d s.fits s.ones s.blk s.sub, W_toNat i (by omega), h]; rfl

theorem Darray64.new_enc (d : Succinct.Darray64Builder) (h : Succinct.Darray64.new = some d) : Darray64.new = some (Darray64.encB d) := by
  unfold Succinct.Darray64.new at h
  simp only [Option.bind_eq_bind, Option.bind_eq_some_iff] at h
  obtain ⟨s, e0, h0⟩ := h
  obtain rfl := Option.some.inj h0
  unfold Darray64.new
  have : Builder.new 0 false = some (Builder.enc s) := by
    have := Builder.new_eq 0 false (by decide)
    rw [e0] at this; exact this
  rw [this]; rfl

namespace GammaVec

def enc (v : Succinct.GammaVec) : GammaVec := ⟨Darray64.enc v.high, BitVector.enc v.low⟩

structure Small (v : Succinct.GammaVec) : Prop where
  high : Darray64.Small v.high
  low : BitVector.Fits v.low

theorem unary_le (ns : List Nat) (h : ∀ k ∈ ns, k ≤ 64) : (Spec.unary ns).length ≤ 65 * ns.length := by
  rw [unary_length]
  induction ns with
  | nil => simp
  | cons k ns ih =>
    have h1 := ih fun x hx => h x (by simp [hx])
    have h2 := h k (by simp)
    simp only [List.sum_cons, List.length_cons]
    omega

theorem gcode_le (c : Word) (xs : List Word) (h : ∀ x ∈ xs, glen c x ≤ 64) : (xs.flatMap (gcode c)).length ≤ 64 * xs.length := by
  induction xs with
  | nil => simp
  | cons x xs ih =>
    have h1 := ih fun y hy => h y (by simp [hy])
    have h2 := h x (by simp)
    rw [List.flatMap_cons, List.length_append, gcode_length, List.length_cons]
    omega

end GammaVec

def GammaEnum.enc (e : Succinct.GammaEnum) : GammaEnum := ⟨W e.idx, W e.pos, e.high.map UEnum.enc, Enum.enc e.low⟩

theorem append1_ones (b b' : Succinct.Darray64Builder) (k : Nat) (h : Succinct.Darray64.append1 b k = some b') : b'.nOnes = b.nOnes + 1 := by
  unfold Succinct.Darray64.append1 at h
  simp only [Option.bind_eq_bind, Option.bind_eq_some_iff] at h
  obtain ⟨s1, h1, s2, h2, last, h3, h⟩ := h
  split at h
  · simp only [Option.bind_eq_some_iff] at h
    obtain ⟨base, h4, d, h5, sb, h6, h⟩ := h
    obtain rfl := Option.some.inj h
    rfl
  · obtain rfl := Option.some.inj h
    rfl

theorem append1_le (b : Succinct.Darray64Builder) (k : Nat) (hk : k < 2^64) (hn : b.nOnes < 2^64) :
    Le (Darray64.append1 (Darray64.encB b) (W k)) (Succinct.Darray64.append1 b k) Darray64.encB :=
  fun b' h => Darray64.append1_eq b b' k hk hn h

theorem mod256 (l : Nat) (h : l < 64) : BitVec.ofNat 64 l % 256 = W l := by
  apply BitVec.eq_of_toNat_eq
  rw [show (256 : Word) = W 256 from rfl, modc _ _ (by decide)]
  show (W l).toNat % 256 = (W l).toNat
  rw [W_toNat l (by omega)]; omega

theorem msb1_lt {x : Word} {l : Nat} (h : msb1 x = some l) : l < 64 := by
  unfold msb1 at h
  simp only [Option.bind_eq_bind, Option.bind_eq_some_iff] at h
  obtain ⟨_, _, h⟩ := h
  exact ((msb_some _ _).1 h).1

theorem lsb1_lt {x : Word} {l : Nat} (h : lsb1 x = some l) : l < 64 := by
  unfold lsb1 at h
  simp only [Option.bind_eq_bind, Option.bind_eq_some_iff] at h
  obtain ⟨_, _, h⟩ := h
  exact Darray.lsb_lt64 h

theorem shl_lt {x y : Word} {n : Nat} (h : shl x n = some y) : n < 64 := by
  unfold shl at h
  split at h
  · assumption
  · cases h

namespace GammaVector

theorem loop_le (xs : List Word) : ∀ (high : Succinct.Darray64Builder) (low : Succinct.Builder), high.nOnes + xs.length < 2^64 →
    Le (loop xs (Darray64.encB high) (Builder.enc low)) (Succinct.GammaVector.loop xs high low) (fun r => (Darray64.encB r.1, Builder.enc r.2)) := by
  induction xs with
  | nil => intro high low _; exact .pure rfl
  | cons x xs ih =>
    intro high low hn
    rw [List.length_cons] at hn
    unfold loop Succinct.GammaVector.loop
    refine (Le.refl _).bind fun l hl => ?_
    have hl64 := msb1_lt hl
    simp only [id, mod256 l hl64, W_toNat l (show l < 2^64 by omega)]
    refine (Le.refl _).bind fun one _ => ?_
    refine (Le.of_eq (Builder.appendBits_eq low _ l (by omega))).bind fun low' _ => ?_
    refine (append1_le high l (by omega) (by omega)).bind fun high' h' => ?_
    exact ih high' low' (by rw [append1_ones _ _ _ h']; omega)

theorem build_eq (xs : List Word) (hx : ∀ x ∈ xs, x ≠ BitVec.allOnes 64) (hlen : xs.length ≤ 2^56) :
    ∃ v, Succinct.GammaVector.build xs = some v ∧ v.Good 1 (glen 1) xs ∧ build xs = some (GammaVec.enc v) ∧ GammaVec.Small v := by
  obtain ⟨v, ev, gv⟩ := Succinct.GammaVector.build_good xs hx
  have hnz := gv.nz
  have hl64 : ∀ x ∈ xs, glen 1 x < 64 := fun x hm => (glen_spec 1 x (hnz x hm)).2.1
  obtain ⟨d0, e0, g0⟩ := Succinct.Darray64.new_good
  obtain ⟨b0, eb, ib⟩ := Succinct.Builder.new_inv 0 false
  obtain ⟨d1, e1, g1⟩ := Succinct.Darray64.append1_good d0 [] 0 g0 (by omega) (by simp)
  obtain ⟨d2, b2, e2, g2, i2⟩ := Succinct.GammaVector.loop_eq xs hnz d1 b0 ([] ++ [0]) _ (by simp) g1 ib
  rw [List.replicate_zero, List.nil_append] at i2
  rw [List.nil_append, List.singleton_append] at g2
  have hk : ∀ k ∈ (0 :: xs.map (glen 1)), k ≤ 64 := by
    intro k hk
    rcases List.mem_cons.1 hk with a | a
    · omega
    · obtain ⟨x, x1, rfl⟩ := List.mem_map.1 a
      have := hl64 x x1; omega
  have hu := GammaVec.unary_le _ hk
  have hg := GammaVec.gcode_le 1 xs fun x hx => Nat.le_of_lt (hl64 x hx)
  rw [List.length_cons, List.length_map] at hu
  obtain ⟨d, f1, f2, f3⟩ := Darray64.finish d2 _ g2 (by omega)
  obtain ⟨lv, el, rl⟩ := Succinct.BitVector.ofBuilder_rep _ _ i2
  have hbs := i2.size
  have hbl := i2.len
  have mv : BitVector.ofBuilder (Builder.enc b2) = some (BitVector.enc lv) := by
    rw [BitVector.ofBuilder_eq _ (by omega) (by omega), el]; rfl
  have m0 := Darray64.new_enc _ e0
  have mb : Builder.new 0 false = some (Builder.enc b0) := by
    have := Builder.new_eq 0 false (by decide)
    rw [eb] at this; exact this
  have hn0 := g0.n
  have hn1 := g1.n
  have m1 := Darray64.append1_eq d0 d1 0 (by decide) (by rw [hn0]; decide) e1
  have m2 := loop_le xs d1 b0 (by rw [hn1]; simp; omega) _ e2
  refine ⟨v, ev, gv, ?_⟩
  have hv : v = ⟨d, lv⟩ := by
    unfold Succinct.GammaVector.build at ev
    rw [e0, bind_pure_some, eb, bind_pure_some, e1, bind_pure_some, e2, bind_pure_some] at ev
    simp only [] at ev
    rw [f1, bind_pure_some, el, bind_pure_some] at ev
    exact (Option.some.inj ev).symm
  rw [hv]
  refine ⟨?_, f3, BitVector.Fits.of_rep rl (by omega)⟩
  unfold build
  rw [m0, bind_pure_some, mb, bind_pure_some, show (0 : Word) = W 0 from rfl, m1, bind_pure_some, m2, bind_pure_some]
  simp only []
  rw [f2, bind_pure_some, mv, bind_pure_some]; rfl

variable {v : Succinct.GammaVec} (s : GammaVec.Small v)
include s

theorem get_le (ov : Word → Nat → Word) (i : Nat) : Le (get ov (GammaVec.enc v) (W i)) (Succinct.GammaVector.get ov v i) id := by
  unfold get Succinct.GammaVector.get
  refine (Darray64.select_W s.high i).bind fun pos _ => ?_
  refine Le.bind (e := fun r => (r.1, W r.2)) ?_ fun a _ => .pure rfl
  unfold retrieve Succinct.GammaVector.retrieve
  refine Le.bind (BitVector.access_W s.high.fits pos) fun b _ => ?_
  refine Le.assert id fun _ => ?_
  have := BitVector.getWord_W s.high.fits (pos + 1)
  rw [W_add] at this
  refine Le.bind this fun w _ => ?_
  refine (Le.refl _).bind fun l hl => ?_
  have hl64 := lsb1_lt hl
  refine (Le.refl _).bind fun one _ => ?_
  refine Le.sub fun h => ?_
  rw [← W_sub _ _ h]
  exact Le.bind (BitVector.getBits_W ov s.low (pos - i) l (by omega)) fun x _ => .pure rfl

omit s in
theorem size_W (n : Nat) (h : v.size = some n) : (GammaVec.enc v).size = W n := by
  unfold Succinct.GammaVec.size at h
  obtain ⟨h', rfl⟩ := Succinct.Darray.subU_eq_some h
  rw [W_sub _ _ h']; rfl

theorem size_lt (n : Nat) (h : v.size = some n) : n < 2^64 := by
  unfold Succinct.GammaVec.size at h
  obtain ⟨h', rfl⟩ := Succinct.Darray.subU_eq_some h
  have := s.high.ones
  omega

theorem enumNew_le (i : Nat) (hi : i < 2^64) : Le (enumNew (GammaVec.enc v) (W i)) (Succinct.GammaVector.enumNew v i) GammaEnum.enc ∧
    ∀ e, Succinct.GammaVector.enumNew v i = some e → e.low.avail < 2^64 := by
  unfold enumNew Succinct.GammaVector.enumNew
  cases hs : v.size with
  | none => exact ⟨fun r h => (nomatch h), fun r h => (nomatch h)⟩
  | some n =>
    have hc : W i < (GammaVec.enc v).size ↔ i < n := by
      rw [size_W n hs]; exact W_lt _ _ hi (size_lt s n hs)
    simp only [hc, bind_pure_some]
    constructor
    · split
      · refine (Darray64.select_W s.high i).bind fun pos _ => ?_
        have := UEnum.new_le (BitVector.len_le s.high.fits) (pos + 1)
        rw [W_add] at this
        refine Le.bind this fun u _ => ?_
        refine Le.sub fun h => ?_
        rw [← W_sub _ _ h]
        exact .pure rfl
      · exact .pure rfl
    · intro e h
      split at h
      · simp only [Option.bind_eq_bind, Option.bind_eq_some_iff] at h
        obtain ⟨pos, _, u, _, off, _, h⟩ := h
        obtain rfl := Option.some.inj h
        show 0 < 2^64
        decide
      · obtain rfl := Option.some.inj h
        show 0 < 2^64
        decide

theorem enumNext_le (e : Succinct.GammaEnum) (he : e.low.avail < 2^64) :
    Le (enumNext (GammaVec.enc v) (GammaEnum.enc e)) (Succinct.GammaVector.enumNext v e) (fun r => (r.1, GammaEnum.enc r.2)) ∧
    ∀ r, Succinct.GammaVector.enumNext v e = some r → r.2.low.avail < 2^64 := by
  constructor
  · intro r h
    unfold Succinct.GammaVector.enumNext at h
    simp only [Option.bind_eq_bind, Option.bind_eq_some_iff] at h
    obtain ⟨n, h1, _, h2, u, h3, ⟨np, u'⟩, h4, d, h5, l, h6, ⟨chunk, low⟩, h7, one, h8, h⟩ := h
    obtain ⟨h5', rfl⟩ := Succinct.Darray.subU_eq_some h5
    obtain ⟨h6', rfl⟩ := Succinct.Darray.subU_eq_some h6
    obtain rfl := Option.some.inj h
    have hl64 := shl_lt h8
    have hle := EliasFano.some_of_assert h2
    have hn := size_lt s n h1
    have el : W np - W e.pos - 1 = W (np - e.pos - 1) := by rw [W_sub _ _ h6', W_sub _ _ h5']; rfl
    unfold enumNext
    rw [size_W n h1, assert_yes (show (GammaEnum.enc e).idx ≤ W n from (W_le _ _ (by omega) hn).2 hle), bind_pure_some,
      show (GammaEnum.enc e).high = some (UEnum.enc u) by show e.high.map _ = _; rw [h3]; rfl, bind_pure_some,
      show (GammaVec.enc v).high.bits.bits = v.high.bits.bits from rfl, show (GammaVec.enc v).low = BitVector.enc v.low from rfl,
      UEnum.next_le (bits := v.high.bits.bits) (BitVector.len_le s.high.fits) u _ h4, bind_pure_some]
    simp only []
    rw [show (GammaEnum.enc e).pos = W e.pos from rfl, el, show (GammaEnum.enc e).low = Enum.enc e.low from rfl,
      (Enum.take_le s.low e.low he (np - e.pos - 1) (by omega)).1 _ h7, bind_pure_some]
    simp only []
    rw [W_toNat _ (by omega), h8, bind_pure_some]
    show some (_, GammaEnum.mk _ _ _ _) = some (_, GammaEnum.mk _ _ _ _)
    rw [W_add]; rfl
  · intro r h
    unfold Succinct.GammaVector.enumNext at h
    simp only [Option.bind_eq_bind, Option.bind_eq_some_iff] at h
    obtain ⟨n, h1, _, h2, u, h3, ⟨np, u'⟩, h4, d, h5, l, h6, ⟨chunk, low⟩, h7, one, h8, h⟩ := h
    obtain rfl := Option.some.inj h
    have hl64 := shl_lt h8
    exact (Enum.take_le s.low e.low he l (by omega)).2 _ h7

theorem enumRun_le (k : Nat) : ∀ (e : Succinct.GammaEnum), e.low.avail < 2^64 →
    Le (enumRun (GammaVec.enc v) k (GammaEnum.enc e)) (Succinct.GammaVector.enumRun v k e) id := by
  induction k with
  | zero => intro e _; exact .pure rfl
  | succ k ih =>
    intro e he
    obtain ⟨k1, k2⟩ := enumNext_le s e he
    unfold enumRun Succinct.GammaVector.enumRun
    refine k1.bind fun a ha => ?_
    obtain ⟨x, e'⟩ := a
    exact (ih e' (k2 _ ha)).bind fun xs _ => .pure rfl

end GammaVector

namespace GammaBitVector
open Succinct.GammaBitVector (hlen glen_pos)
open GammaVector (size_W size_lt)

theorem loop_le (xs : List Word) : ∀ (high : Succinct.Darray64Builder) (low : Succinct.Builder), high.nOnes + xs.length < 2^64 →
    Le (loop xs (Darray64.encB high) (Builder.enc low)) (Succinct.GammaBitVector.loop xs high low)
      (fun r => (Darray64.encB r.1, Builder.enc r.2)) := by
  induction xs with
  | nil => intro high low _; exact .pure rfl
  | cons x xs ih =>
    intro high low hn
    rw [List.length_cons] at hn
    unfold loop Succinct.GammaBitVector.loop
    refine (Le.refl _).bind fun l hl => ?_
    have hl64 := msb1_lt hl
    simp only [id, mod256 l hl64, W_toNat l (show l < 2^64 by omega)]
    refine Le.assert (fun h => ?_) fun h => ?_
    · exact (W_lt 0 l (by decide) (by omega)).2 h
    rw [show W l - 1 = W (l - 1) from (W_sub l 1 h).symm]
    refine (append1_le high (l - 1) (by omega) (by omega)).bind fun high' h' => ?_
    refine (Le.refl _).bind fun one _ => ?_
    refine (Le.of_eq (Builder.appendBits_eq low _ l (by omega))).bind fun low' _ => ?_
    exact ih high' low' (by rw [append1_ones _ _ _ h']; omega)

theorem build_eq (xs : List Word) (hx : ∀ x ∈ xs, x.toNat < 2^64 - 2) (hlen' : xs.length ≤ 2^56) :
    ∃ v, Succinct.GammaBitVector.build xs = some v ∧ v.Good 2 hlen xs ∧ (∀ x ∈ xs, 1 ≤ glen 2 x) ∧ build xs = some (GammaVec.enc v) ∧
      GammaVec.Small v := by
  obtain ⟨v, ev, gv, gp⟩ := Succinct.GammaBitVector.build_good xs hx
  have h2 : ∀ x ∈ xs, 2 ≤ (x + 2).toNat := by
    intro x hm
    have := hx x hm
    rw [BitVec.toNat_add, show (2 : Word).toNat = 2 from rfl, Nat.mod_eq_of_lt (by omega)]; omega
  have hl64 : ∀ x ∈ xs, glen 2 x < 64 := fun x hm => (glen_spec 2 x (gv.nz x hm)).2.1
  obtain ⟨d0, e0, g0⟩ := Succinct.Darray64.new_good
  obtain ⟨b0, eb, ib⟩ := Succinct.Builder.new_inv 0 false
  obtain ⟨d1, e1, g1⟩ := Succinct.Darray64.append1_good d0 [] 0 g0 (by omega) (by simp)
  obtain ⟨d2, b2, e2, g2, i2⟩ := Succinct.GammaBitVector.loop_eq xs h2 d1 b0 ([] ++ [0]) _ (by simp) g1 ib
  rw [List.replicate_zero, List.nil_append] at i2
  rw [List.nil_append, List.singleton_append] at g2
  have hk : ∀ k ∈ (0 :: xs.map hlen), k ≤ 64 := by
    intro k hk
    rcases List.mem_cons.1 hk with a | a
    · omega
    · obtain ⟨x, x1, rfl⟩ := List.mem_map.1 a
      have := hl64 x x1
      unfold hlen; omega
  have hu := GammaVec.unary_le _ hk
  have hg := GammaVec.gcode_le 2 xs fun x hx => Nat.le_of_lt (hl64 x hx)
  rw [List.length_cons, List.length_map] at hu
  obtain ⟨d, f1, f2, f3⟩ := Darray64.finish d2 _ g2 (by omega)
  obtain ⟨lv, el, rl⟩ := Succinct.BitVector.ofBuilder_rep _ _ i2
  have hbs := i2.size
  have hbl := i2.len
  have mv : BitVector.ofBuilder (Builder.enc b2) = some (BitVector.enc lv) := by
    rw [BitVector.ofBuilder_eq _ (by omega) (by omega), el]; rfl
  have m0 := Darray64.new_enc _ e0
  have mb : Builder.new 0 false = some (Builder.enc b0) := by
    have := Builder.new_eq 0 false (by decide)
    rw [eb] at this; exact this
  have hn0 := g0.n
  have hn1 := g1.n
  have m1 := Darray64.append1_eq d0 d1 0 (by decide) (by rw [hn0]; decide) e1
  have m2 := loop_le xs d1 b0 (by rw [hn1]; simp; omega) _ e2
  refine ⟨v, ev, gv, gp, ?_⟩
  have hv : v = ⟨d, lv⟩ := by
    unfold Succinct.GammaBitVector.build at ev
    rw [e0, bind_pure_some, eb, bind_pure_some, e1, bind_pure_some, e2, bind_pure_some] at ev
    simp only [] at ev
    rw [f1, bind_pure_some, el, bind_pure_some] at ev
    exact (Option.some.inj ev).symm
  rw [hv]
  refine ⟨?_, f3, BitVector.Fits.of_rep rl (by omega)⟩
  unfold build
  rw [m0, bind_pure_some, mb, bind_pure_some, show (0 : Word) = W 0 from rfl, m1, bind_pure_some, m2, bind_pure_some]
  simp only []
  rw [f2, bind_pure_some, mv, bind_pure_some]; rfl

variable {v : Succinct.GammaVec} (s : GammaVec.Small v)
include s

theorem get_le (ov : Word → Nat → Word) (i : Nat) : Le (get ov (GammaVec.enc v) (W i)) (Succinct.GammaBitVector.get ov v i) id := by
  unfold get Succinct.GammaBitVector.get
  refine (Darray64.select_W s.high i).bind fun pos _ => ?_
  refine Le.bind (e := fun r => (r.1, W r.2)) ?_ fun a _ => .pure rfl
  unfold retrieve Succinct.GammaBitVector.retrieve
  refine Le.bind (BitVector.access_W s.high.fits pos) fun b _ => ?_
  refine Le.assert id fun _ => ?_
  have := BitVector.getWord_W s.high.fits (pos + 1)
  rw [W_add] at this
  refine Le.bind this fun w _ => ?_
  refine (Le.refl _).bind fun l hl => ?_
  have hl64 := lsb1_lt hl
  have e1 : BitVec.ofNat 64 (id l) + 1 = W (l + 1) := (W_add l 1).symm
  simp only [e1, W_toNat (l + 1) (show l + 1 < 2^64 by omega)]
  refine Le.bind (BitVector.getBits_W ov s.low pos (l + 1) (by omega)) fun x _ => ?_
  exact (Le.refl _).bind fun one _ => .pure rfl

theorem enumNew_le (i : Nat) (hi : i < 2^64) : Le (enumNew (GammaVec.enc v) (W i)) (Succinct.GammaBitVector.enumNew v i) GammaEnum.enc ∧
    ∀ e, Succinct.GammaBitVector.enumNew v i = some e → e.low.avail < 2^64 := by
  unfold enumNew Succinct.GammaBitVector.enumNew
  cases hs : v.size with
  | none => exact ⟨fun r h => (nomatch h), fun r h => (nomatch h)⟩
  | some n =>
    have hc : W i < (GammaVec.enc v).size ↔ i < n := by
      rw [size_W n hs]; exact W_lt _ _ hi (size_lt s n hs)
    simp only [hc, bind_pure_some]
    constructor
    · split
      · refine (Darray64.select_W s.high i).bind fun pos _ => ?_
        have := UEnum.new_le (BitVector.len_le s.high.fits) (pos + 1)
        rw [W_add] at this
        exact Le.bind this fun u _ => .pure rfl
      · exact .pure rfl
    · intro e h
      split at h
      · simp only [Option.bind_eq_bind, Option.bind_eq_some_iff] at h
        obtain ⟨pos, _, u, _, h⟩ := h
        obtain rfl := Option.some.inj h
        show 0 < 2^64
        decide
      · obtain rfl := Option.some.inj h
        show 0 < 2^64
        decide

theorem enumNext_le (e : Succinct.GammaEnum) (he : e.low.avail < 2^64) :
    Le (enumNext (GammaVec.enc v) (GammaEnum.enc e)) (Succinct.GammaBitVector.enumNext v e) (fun r => (r.1, GammaEnum.enc r.2)) ∧
    ∀ r, Succinct.GammaBitVector.enumNext v e = some r → r.2.low.avail < 2^64 := by
  constructor
  · intro r h
    unfold Succinct.GammaBitVector.enumNext at h
    simp only [Option.bind_eq_bind, Option.bind_eq_some_iff] at h
    obtain ⟨n, h1, _, h2, u, h3, ⟨np, u'⟩, h4, d, h5, l, h6, ⟨chunk, low⟩, h7, one, h8, h⟩ := h
    obtain ⟨h5', rfl⟩ := Succinct.Darray.subU_eq_some h5
    obtain ⟨h6', rfl⟩ := Succinct.Darray.subU_eq_some h6
    obtain rfl := Option.some.inj h
    have hl64 := shl_lt h8
    have hle := EliasFano.some_of_assert h2
    have hn := size_lt s n h1
    have el : W np - W e.pos - 1 + 1 = W (np - e.pos - 1 + 1) := by rw [W_add, W_sub _ _ h6', W_sub _ _ h5']; rfl
    unfold enumNext
    rw [size_W n h1, assert_yes (show (GammaEnum.enc e).idx ≤ W n from (W_le _ _ (by omega) hn).2 hle), bind_pure_some,
      show (GammaEnum.enc e).high = some (UEnum.enc u) by show e.high.map _ = _; rw [h3]; rfl, bind_pure_some,
      show (GammaVec.enc v).high.bits.bits = v.high.bits.bits from rfl, show (GammaVec.enc v).low = BitVector.enc v.low from rfl,
      UEnum.next_le (bits := v.high.bits.bits) (BitVector.len_le s.high.fits) u _ h4, bind_pure_some]
    simp only []
    rw [show (GammaEnum.enc e).pos = W e.pos from rfl, el, show (GammaEnum.enc e).low = Enum.enc e.low from rfl,
      (Enum.take_le s.low e.low he (np - e.pos - 1 + 1) (by omega)).1 _ h7, bind_pure_some]
    simp only []
    rw [W_toNat _ (by omega), h8, bind_pure_some]
    show some (_, GammaEnum.mk _ _ _ _) = some (_, GammaEnum.mk _ _ _ _)
    rw [W_add]; rfl
  · intro r h
    unfold Succinct.GammaBitVector.enumNext at h
    simp only [Option.bind_eq_bind, Option.bind_eq_some_iff] at h
    obtain ⟨n, h1, _, h2, u, h3, ⟨np, u'⟩, h4, d, h5, l, h6, ⟨chunk, low⟩, h7, one, h8, h⟩ := h
    obtain rfl := Option.some.inj h
    have hl64 := shl_lt h8
    exact (Enum.take_le s.low e.low he (l + 1) (by omega)).2 _ h7

theorem enumSkip_le (k : Nat) : ∀ (e : Succinct.GammaEnum), e.low.avail < 2^64 →
    Le (enumSkip (GammaVec.enc v) k (GammaEnum.enc e)) (Succinct.GammaBitVector.enumSkip v k e) GammaEnum.enc ∧
    ∀ r, Succinct.GammaBitVector.enumSkip v k e = some r → r.low.avail < 2^64 := by
  induction k with
  | zero => intro e he; exact ⟨.pure rfl, fun r h => by obtain rfl := Option.some.inj h; exact he⟩
  | succ k ih =>
    intro e he
    obtain ⟨k1, k2⟩ := enumNext_le s e he
    unfold enumSkip Succinct.GammaBitVector.enumSkip
    constructor
    · refine k1.bind fun a ha => ?_
      obtain ⟨x, e'⟩ := a
      exact (ih e' (k2 _ ha)).1
    · intro r h
      simp only [Option.bind_eq_bind, Option.bind_eq_some_iff] at h
      obtain ⟨⟨x, e'⟩, h1, h⟩ := h
      exact (ih e' (k2 _ h1)).2 r h

theorem enumRun_le (ops : List (Option Word)) : ∀ (e : Succinct.GammaEnum), e.low.avail < 2^64 →
    Le (enumRun (GammaVec.enc v) ops (GammaEnum.enc e)) (Succinct.GammaBitVector.enumRun v (ops.map (Option.map BitVec.toNat)) e) id := by
  induction ops with
  | nil => intro e _; exact .pure rfl
  | cons op ops ih =>
    intro e he
    cases op with
    | none =>
      obtain ⟨k1, k2⟩ := enumNext_le s e he
      unfold enumRun
      rw [List.map_cons, Option.map_none]
      unfold Succinct.GammaBitVector.enumRun
      refine k1.bind fun a ha => ?_
      obtain ⟨x, e'⟩ := a
      exact (ih e' (k2 _ ha)).bind fun xs _ => .pure rfl
    | some k =>
      obtain ⟨k1, k2⟩ := enumSkip_le s k.toNat e he
      unfold enumRun
      rw [List.map_cons, Option.map_some]
      unfold Succinct.GammaBitVector.enumRun
      exact k1.bind fun e' he' => ih e' (k2 _ he')

end GammaBitVector
end Machine
end Succinct
