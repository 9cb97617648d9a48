import Verif.Lemmas.MapperProps

/-! Images that can be mapped and read are images that freezing writes. -/
namespace Succinct.Mapper
open RSBitVector (bind_pure_some)
open Spec

theorem leDec_lt (bs : List Byte) : leDec bs < 256^bs.length := by
  induction bs with
  | nil => decide
  | cons b bs ih =>
    rw [leDec, List.length_cons, Nat.pow_succ]
    have := b.isLt
    omega

theorem leEnc_leDec (bs : List Byte) : leEnc bs.length (leDec bs) = bs := by
  induction bs with
  | nil => rfl
  | cons b bs ih =>
    have hb := b.isLt
    rw [List.length_cons, leEnc, leDec]
    have h1 : (b.toNat + 256 * leDec bs) / 256 = leDec bs := by omega
    have h2 : BitVec.ofNat 8 (b.toNat + 256 * leDec bs) = b := by
      apply BitVec.eq_of_toNat_eq
      rw [BitVec.toNat_ofNat]
      omega
    rw [h1, h2, ih]

theorem leEncS_leDecS (bs : List Byte) : leEncS bs.length (leDecS bs) = bs := by
  unfold leEncS leDecS
  rw [Int.bmod_emod]
  have h := leDec_lt bs
  rw [Int.emod_eq_of_lt (by omega) (by omega), Int.toNat_natCast, leEnc_leDec]

theorem leDecS_range {bs : List Byte} {k : Nat} (hk : 0 < k) (h : bs.length = k) :
    -((256^k / 2 : Nat) : Int) ≤ leDecS bs ∧ leDecS bs < ((256^k / 2 : Nat) : Int) := by
  unfold leDecS
  rw [h]
  have hp : 0 < 256^k := Nat.pow_pos (by omega)
  have he : 256^k % 2 = 0 := by
    obtain ⟨j, rfl⟩ : ∃ j, k = j + 1 := ⟨k - 1, by omega⟩
    rw [Nat.pow_succ]; omega
  have h1 := Int.le_bmod (x := (leDec bs : Int)) (m := 256^k) hp
  have h2 := Int.bmod_lt (x := (leDec bs : Int)) (m := 256^k) hp
  omega

/-- no vector has `2^60` elements or more (unless they have no bytes) -/
def Val.Short : Val → Prop
  | .done => True
  | .pod _ _ rest => rest.Short
  | .vec _ es xs rest => (es = 0 ∨ xs.length < 2^60) ∧ rest.Short
  | .obj _ inner rest => inner.Short ∧ rest.Short

theorem rdBytes_some {mem : List Byte} {p n : Nat} {r : List Byte} (h : rdBytes mem p n = some r) : p + n ≤ mem.length ∧ r = (mem.drop p).take n ∧ r.length = n := by
  have hl := rdBytes_le h
  unfold rdBytes at h
  rw [if_pos hl] at h
  have := (Option.some.inj h).symm
  refine ⟨hl, this, ?_⟩
  rw [this, List.length_take, List.length_drop]
  omega

theorem take_drop_add (img : List Byte) (p a b : Nat) : (img.drop p).take a ++ (img.drop (p + a)).take b = (img.drop p).take (a + b) := by
  rw [List.take_add, List.drop_drop]

theorem loadElems_some {img : List Byte} {es n p : Nat} {xs : List (List Byte)} (hp : p ≤ img.length) (h : loadElems img es n p = some xs) :
    xs.length = n ∧ (∀ x ∈ xs, x.length = es) ∧ xs.flatten = (img.drop p).take (n * es) ∧ p + n * es ≤ img.length := by
  induction n generalizing p xs with
  | zero =>
    cases h
    refine ⟨rfl, by simp, by simp, by omega⟩
  | succ n ih =>
    rw [loadElems] at h
    obtain ⟨b, h1, h2⟩ := bind_some h
    obtain ⟨r, h3, h4⟩ := bind_some h2
    cases h4
    obtain ⟨k1, k2, k3⟩ := rdBytes_some h1
    obtain ⟨j1, j2, j3, j4⟩ := ih (by omega) h3
    refine ⟨by rw [List.length_cons, j1], ?_, ?_, by rw [Nat.succ_mul]; omega⟩
    · intro x hx
      rcases List.mem_cons.1 hx with rfl | hx
      · exact k3
      · exact j2 x hx
    · rw [List.flatten_cons, j3, k2, take_drop_add, Nat.succ_mul, Nat.add_comm]

theorem mapV_sound {fl : Word} {img : List Byte} (hi : img.length < 2^60) (l : Lay) (pos p : Nat) (m : MVal) (w : Val) (hp : pos ≤ img.length)
    (h : mapV fl img l pos = some (m, p)) (hl : load img m = some w) :
    w.lay = l ∧ w.WF ∧ w.Short ∧ w.flat = (img.drop pos).take (p - pos) ∧ pos ≤ p ∧ p ≤ img.length := by
  induction l generalizing pos p m w with
  | done =>
    rw [mapV] at h
    cases h
    cases hl
    exact ⟨rfl, trivial, trivial, by simp [Val.flat], Nat.le_refl _, hp⟩
  | pod n k rest ih =>
    rw [mapV] at h
    obtain ⟨bs, h1, h2⟩ := bind_some h
    obtain ⟨⟨a, q⟩, h3, h4⟩ := bind_some h2
    cases h4
    rw [load] at hl
    obtain ⟨w', h5, h6⟩ := bind_some hl
    cases h6
    obtain ⟨k1, k2, k3⟩ := rdBytes_some h1
    obtain ⟨j1, j2, j3, j4, j5, j6⟩ := ih _ _ _ _ k1 h3 h5
    refine ⟨by rw [Val.lay, j1, k3], j2, j3, ?_, by omega, j6⟩
    rw [Val.flat, j4, k2, take_drop_add]
    congr 1
    omega
  | vec n es rest ih =>
    rw [mapV] at h
    obtain ⟨bs, h1, h2⟩ := bind_some h
    simp only [] at h2
    obtain ⟨u, _, h6⟩ := bind_some h2
    obtain ⟨⟨a, q⟩, h3, h4⟩ := bind_some h6
    cases h4
    rw [load] at hl
    obtain ⟨xs, h7, h8⟩ := bind_some hl
    obtain ⟨w', h5, h9⟩ := bind_some h8
    cases h9
    obtain ⟨k1, k2, k3⟩ := rdBytes_some h1
    obtain ⟨e1, e2, e3, e4⟩ := loadElems_some k1 h7
    have hd : leDec bs < 2^64 := by have := leDec_lt bs; rwa [k3] at this
    rw [Nat.mod_eq_of_lt (by omega)] at h3
    obtain ⟨j1, j2, j3, j4, j5, j6⟩ := ih _ _ _ _ e4 h3 h5
    refine ⟨by rw [Val.lay, j1], ⟨e2, by omega, by rw [e1]; omega, j2⟩, ⟨?_, j3⟩, ?_, by omega, j6⟩
    · rcases Nat.eq_zero_or_pos es with h0 | h0
      · exact Or.inl h0
      · right
        have := Nat.le_mul_of_pos_right (leDec bs) h0
        omega
    · have hb := leEnc_leDec bs
      rw [k3] at hb
      generalize leDec bs = z at *
      rw [Val.flat, e1, hb, e3, j4, k2, take_drop_add]
      have := take_drop_add img pos (8 + z * es) (q - (pos + 8 + z * es))
      rw [← Nat.add_assoc] at this
      rw [this]
      congr 1
      show 8 + z * es + (q - (pos + 8 + z * es)) = q - pos
      omega
  | obj n inner rest ih1 ih2 =>
    rw [mapV] at h
    obtain ⟨⟨a, q⟩, h1, h2⟩ := bind_some h
    simp only [] at h2
    obtain ⟨⟨b, q'⟩, h3, h4⟩ := bind_some h2
    cases h4
    rw [load] at hl
    obtain ⟨x, h5, h6⟩ := bind_some hl
    obtain ⟨y, h7, h8⟩ := bind_some h6
    cases h8
    obtain ⟨i1, i2, i3, i4, i5, i6⟩ := ih1 _ _ _ _ hp h1 h5
    obtain ⟨j1, j2, j3, j4, j5, j6⟩ := ih2 _ _ _ _ i6 h3 h7
    refine ⟨by rw [Val.lay, i1, j1], ⟨i2, j2⟩, ⟨i3, j3⟩, ?_, by omega, j6⟩
    rw [Val.flat, i4, j4]
    have := take_drop_add img pos (q - pos) (q' - q)
    rw [show pos + (q - pos) = q by omega] at this
    rw [this]
    congr 1
    omega

theorem warmup_load (img : List Byte) (es n p : Nat) : warmup img es n p = (loadElems img es n p).map fun _ => () := by
  induction n generalizing p with
  | zero => rfl
  | succ n ih =>
    rw [warmup, loadElems, ih]
    cases rdBytes img p es with
    | none => rfl
    | some b =>
      rw [bind_pure_some, bind_pure_some]
      cases loadElems img es n (p + es) <;> rfl

theorem mapV_warmup {fl : Word} (hf : fl &&& 1 ≠ 0) (img : List Byte) (l : Lay) (pos : Nat) :
    mapV fl img l pos = (mapV 0 img l pos).bind fun r => (load img r.1).map fun _ => r := by
  induction l generalizing pos with
  | done => rfl
  | pod n k rest ih =>
    rw [mapV, mapV]
    cases rdBytes img pos k with
    | none => rfl
    | some bs =>
      rw [bind_pure_some, bind_pure_some, ih]
      cases mapV 0 img rest (pos + k) with
      | none => rfl
      | some r =>
        rw [Option.bind_some, bind_pure_some]
        simp only [pure, Option.bind_some, load]
        cases load img r.1 <;> rfl
  | vec n es rest ih =>
    rw [mapV, mapV]
    cases rdBytes img pos 8 with
    | none => rfl
    | some bs =>
      rw [bind_pure_some, bind_pure_some]
      simp only []
      rw [show warmupIf 0 img es (leDec bs) (pos + 8) = some () from rfl, bind_pure_some, show warmupIf fl img es (leDec bs) (pos + 8) = warmup img es (leDec bs) (pos + 8) from if_pos hf,
        warmup_load, ih]
      cases mapV 0 img rest (pos + 8 + leDec bs * es % 2^64) with
      | none =>
        cases loadElems img es (leDec bs) (pos + 8) <;> rfl
      | some r =>
        rw [bind_pure_some]
        simp only [pure, Option.bind_some, load]
        cases loadElems img es (leDec bs) (pos + 8) with
        | none => rfl
        | some xs =>
          rw [Option.map_some, bind_pure_some, bind_pure_some]
          cases load img r.1 <;> rfl
  | obj n inner rest ih1 ih2 =>
    rw [mapV, mapV, ih1]
    cases mapV 0 img inner pos with
    | none => rfl
    | some q =>
      rw [Option.bind_some, bind_pure_some]
      simp only []
      cases hi : load img q.1 with
      | none =>
        cases mapV 0 img rest q.2 with
        | none => rfl
        | some r =>
          rw [bind_pure_some]
          simp only [pure, Option.bind_some, load, hi]
          rfl
      | some i =>
        rw [Option.map_some, bind_pure_some]
        rw [ih2]
        cases mapV 0 img rest q.2 with
        | none => rfl
        | some r =>
          rw [Option.bind_some, bind_pure_some]
          simp only [pure, Option.bind_some, load, hi]
          rw [bind_pure_some]
          cases load img r.1 <;> rfl

theorem loadElems_inside {img : List Byte} {es n p : Nat} (h : p + n * es ≤ img.length) : ∃ xs, loadElems img es n p = some xs := by
  induction n generalizing p with
  | zero => exact ⟨[], rfl⟩
  | succ n ih =>
    rw [Nat.succ_mul] at h
    obtain ⟨xs, hx⟩ := ih (p := p + es) (by omega)
    refine ⟨(img.drop p).take es :: xs, ?_⟩
    rw [loadElems, show rdBytes img p es = some ((img.drop p).take es) from if_pos (by omega), bind_pure_some, hx]
    rfl

theorem mapV_inside {fl : Word} {img : List Byte} (l : Lay) (pos p : Nat) (m : MVal) (h : mapV fl img l pos = some (m, p))
    (hv : ∀ v ∈ vectors m, v.2.2 * v.1 < 2^64) : pos ≤ p ∧ (p ≤ img.length → ∃ w, load img m = some w) := by
  induction l generalizing pos p m with
  | done =>
    rw [mapV] at h
    cases h
    exact ⟨Nat.le_refl _, fun _ => ⟨_, rfl⟩⟩
  | pod n k rest ih =>
    rw [mapV] at h
    obtain ⟨bs, h1, h2⟩ := bind_some h
    obtain ⟨⟨a, q⟩, h3, h4⟩ := bind_some h2
    cases h4
    obtain ⟨j1, j2⟩ := ih _ _ _ h3 hv
    refine ⟨by omega, fun hp => ?_⟩
    obtain ⟨w, hw⟩ := j2 hp
    exact ⟨_, by rw [load, hw]; rfl⟩
  | vec n es rest ih =>
    rw [mapV] at h
    obtain ⟨bs, h1, h2⟩ := bind_some h
    simp only [] at h2
    obtain ⟨u, _, h6⟩ := bind_some h2
    obtain ⟨⟨a, q⟩, h3, h4⟩ := bind_some h6
    cases h4
    have hb := hv (es, pos + 8, leDec bs) (by simp [vectors])
    simp only [] at hb
    rw [Nat.mod_eq_of_lt hb] at h3
    obtain ⟨j1, j2⟩ := ih _ _ _ h3 (fun v hm => hv v (by simp [vectors, hm]))
    refine ⟨by omega, fun hp => ?_⟩
    obtain ⟨w, hw⟩ := j2 hp
    obtain ⟨xs, hx⟩ := loadElems_inside (img := img) (es := es) (n := leDec bs) (p := pos + 8) (by omega)
    exact ⟨_, by rw [load, hx, bind_pure_some, hw]; rfl⟩
  | obj n inner rest ih1 ih2 =>
    rw [mapV] at h
    obtain ⟨⟨a, q⟩, h1, h2⟩ := bind_some h
    simp only [] at h2
    obtain ⟨⟨b, q'⟩, h3, h4⟩ := bind_some h2
    cases h4
    obtain ⟨i1, i2⟩ := ih1 _ _ _ h1 (fun v hm => hv v (by simp [vectors, hm]))
    obtain ⟨j1, j2⟩ := ih2 _ _ _ h3 (fun v hm => hv v (by simp [vectors, hm]))
    refine ⟨by omega, fun hp => ?_⟩
    obtain ⟨x, hx⟩ := i2 (by omega)
    obtain ⟨y, hy⟩ := j2 hp
    exact ⟨_, by rw [load, hx, bind_pure_some, hy]; rfl⟩

/-! every value of the right shape is that of a representable object -/

def Codec.Onto {α : Type} (c : Codec α) : Prop :=
  ∀ w l, w.lay = c.lay l → w.WF → w.Short → ∃ x r, c.fits x ∧ w = c.put x r ∧ r.lay = l ∧ r.WF ∧ r.Short

namespace Codec

theorem pod_onto {α : Type} (name : String) (k : Nat) (enc : α → List Byte) (dec : List Byte → α) (fits : α → Prop)
    (h : ∀ bs : List Byte, bs.length = k → fits (dec bs) ∧ enc (dec bs) = bs) : (pod name k enc dec fits).Onto := by
  intro w l hl hw hs
  cases w with
  | pod n bs r =>
    simp only [Val.lay, pod, Lay.pod.injEq] at hl
    obtain ⟨rfl, h2, h3⟩ := hl
    exact ⟨dec bs, r, (h bs h2).1, by simp only [pod]; rw [(h bs h2).2], h3, hw, hs⟩
  | _ => simp [Val.lay, pod] at hl

theorem vec_onto {α : Type} (name : String) (k : Nat) (hk : k ≠ 0) (enc : α → List Byte) (dec : List Byte → α) (fits : α → Prop)
    (h : ∀ bs : List Byte, bs.length = k → fits (dec bs) ∧ enc (dec bs) = bs) : (vec name k enc dec fits).Onto := by
  intro w l hl hw hs
  cases w with
  | vec n es xs r =>
    simp only [Val.lay, vec, Lay.vec.injEq] at hl
    obtain ⟨rfl, rfl, h3⟩ := hl
    refine ⟨xs.map dec, r, ⟨by rw [List.length_map]; exact hs.1.resolve_left hk, ?_⟩, ?_, h3, hw.2.2.2, hs.2⟩
    · intro x hx
      obtain ⟨b, hb, rfl⟩ := List.mem_map.1 hx
      exact (h b (hw.1 b hb)).1
    · simp only [vec]
      rw [List.map_map]
      have := (List.map_congr_left (f := enc ∘ dec) (g := id) (l := xs) fun b hb => (h b (hw.1 b hb)).2).trans (List.map_id xs)
      rw [this]
  | _ => simp [Val.lay, vec] at hl

theorem seq_onto {α β : Type} {c : Codec α} {d : Codec β} (hc : c.Onto) (hd : d.Onto) : (c ⊳ d).Onto := by
  intro w l hl hw hs
  obtain ⟨x, r, f, rfl, hr, hw, hs⟩ := hc w _ hl hw hs
  obtain ⟨y, r', f', rfl, hr, hw, hs⟩ := hd r _ hr hw hs
  exact ⟨(x, y), r', ⟨f, f'⟩, rfl, hr, hw, hs⟩

theorem obj_onto {α : Type} (name : String) {c : Codec α} (hc : c.Onto) : (obj name c).Onto := by
  intro w l hl hw hs
  cases w with
  | obj n i r =>
    simp only [Val.lay, obj, Lay.obj.injEq] at hl
    obtain ⟨rfl, h2, h3⟩ := hl
    obtain ⟨x, r', f, rfl, hr, _, _⟩ := hc i _ h2 hw.1 hs.1
    have : r' = .done := by cases r' <;> simp [Val.lay] at hr <;> rfl
    subst this
    exact ⟨x, r, f, rfl, h3, hw.2, hs.2⟩
  | _ => simp [Val.lay, obj] at hl

theorem iso_onto {α β : Type} {c : Codec α} {mk : α → β} {un : β → α} (hc : c.Onto) (h : ∀ x, un (mk x) = x) : (iso c mk un).Onto := by
  intro w l hl hw hs
  obtain ⟨x, r, f, rfl, hr, hw, hs⟩ := hc w l hl hw hs
  exact ⟨mk x, r, by simp only [iso]; rw [h]; exact f, by simp only [iso]; rw [h], hr, hw, hs⟩

theorem dec_u {k : Nat} (bs : List Byte) (h : bs.length = k) : leDec bs < 256^k ∧ leEnc k (leDec bs) = bs := by
  subst h
  exact ⟨leDec_lt bs, leEnc_leDec bs⟩

theorem dec_w (bs : List Byte) (h : bs.length = 8) : True ∧ leEnc 8 (BitVec.ofNat 64 (leDec bs)).toNat = bs := by
  have := dec_u bs h
  rw [BitVec.toNat_ofNat, Nat.mod_eq_of_lt (by simpa using this.1)]
  exact ⟨trivial, this.2⟩

theorem dec_s {k : Nat} (bs : List Byte) (h : bs.length = k) : leEncS k (leDecS bs) = bs := by
  subst h
  exact leEncS_leDecS bs

theorem u64_onto (n : String) : (u64 n).Onto := pod_onto _ _ _ _ _ fun bs h => by simpa using dec_u bs h
theorem w64_onto (n : String) : (w64 n).Onto := pod_onto _ _ _ _ _ dec_w
theorem u8_onto (n : String) : (u8 n).Onto := pod_onto _ _ _ _ _ fun bs h => by simpa using dec_u bs h
theorem vu64_onto (n : String) : (vu64 n).Onto := vec_onto _ _ (by decide) _ _ _ fun bs h => by simpa using dec_u bs h
theorem vw64_onto (n : String) : (vw64 n).Onto := vec_onto _ _ (by decide) _ _ _ dec_w
theorem vu16_onto (n : String) : (vu16 n).Onto := vec_onto _ _ (by decide) _ _ _ fun bs h => by simpa using dec_u bs h
theorem vi16_onto (n : String) : (vi16 n).Onto := vec_onto _ _ (by decide) _ _ _ fun bs h =>
  ⟨by have := leDecS_range (by decide) h; simpa using this, dec_s bs h⟩
theorem vi32_onto (n : String) : (vi32 n).Onto := vec_onto _ _ (by decide) _ _ _ fun bs h =>
  ⟨by have := leDecS_range (by decide) h; simpa using this, dec_s bs h⟩
theorem vi64_onto (n : String) : (vi64 n).Onto := vec_onto _ _ (by decide) _ _ _ fun bs h =>
  ⟨by have := leDecS_range (by decide) h; simpa using this, dec_s bs h⟩

theorem bitVector_onto : bitVector.Onto := iso_onto (seq_onto (u64_onto _) (vw64_onto _)) (fun _ => rfl)
theorem rsBitVector_onto : rsBitVector.Onto :=
  iso_onto (seq_onto bitVector_onto (seq_onto (vu64_onto _) (seq_onto (vu64_onto _) (vu64_onto _)))) (fun _ => rfl)
theorem bpVector_onto : bpVector.Onto :=
  iso_onto (seq_onto rsBitVector_onto (seq_onto (u64_onto _) (seq_onto (vi16_onto _) (vi32_onto _)))) (fun _ => rfl)
theorem darray_onto : darray.Onto :=
  iso_onto (seq_onto (u64_onto _) (seq_onto (vi64_onto _) (seq_onto (vu16_onto _) (vu64_onto _)))) (fun _ => rfl)
theorem darray64_onto : darray64.Onto :=
  iso_onto (seq_onto (u64_onto _) (seq_onto (obj_onto _ bitVector_onto) (seq_onto (vu64_onto _) (vu16_onto _)))) (fun _ => rfl)
theorem eliasFano_onto : eliasFano.Onto :=
  iso_onto (seq_onto (w64_onto _) (seq_onto (obj_onto _ bitVector_onto) (seq_onto (obj_onto _ darray_onto)
    (seq_onto (obj_onto _ darray_onto) (seq_onto (obj_onto _ bitVector_onto) (u8_onto _)))))) (fun _ => rfl)
theorem efList_onto : efList.Onto := iso_onto (obj_onto _ eliasFano_onto) (fun _ => rfl)
theorem efCompressedList_onto : efCompressedList.Onto := iso_onto (seq_onto (obj_onto _ eliasFano_onto) (obj_onto _ bitVector_onto)) (fun _ => rfl)
theorem gammaVector_onto : gammaVector.Onto := iso_onto (seq_onto (obj_onto _ darray64_onto) (obj_onto _ bitVector_onto)) (fun _ => rfl)
theorem gammaBitVector_onto : gammaBitVector.Onto := iso_onto (seq_onto (obj_onto _ darray64_onto) (obj_onto _ bitVector_onto)) (fun _ => rfl)
theorem cartesianTree_onto : cartesianTree.Onto := iso_onto (obj_onto _ bpVector_onto) (fun _ => rfl)
theorem nibbleVector_onto : nibbleVector.Onto :=
  iso_onto (seq_onto (u64_onto _) (vec_onto _ _ (by decide) _ _ _ fun bs h => ⟨trivial, by
    match bs, h with
    | [b], _ => rfl⟩)) (fun _ => rfl)
theorem topK_onto {α : Type} {c : Codec (List α)} (hc : c.Onto) : (topK c).Onto := iso_onto (seq_onto hc (obj_onto _ cartesianTree_onto)) (fun _ => rfl)

end Codec
end Succinct.Mapper
