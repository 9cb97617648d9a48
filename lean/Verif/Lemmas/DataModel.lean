import Verif.Model.DataModel
import Verif.Lemmas.Image
import Verif.Lemmas.MapperProps

/-! # Lemmas for C117 -/
namespace Succinct.Mapper
open RSBitVector (bind_pure_some)

theorem long32_small {n : Nat} (h : n % 2^32 < 2^31) : long32 n = (n % 2^32 : Nat) := by
  unfold long32; rw [Int.bmod]; split <;> omega
theorem long32_neg {n : Nat} (h : 2^31 ≤ n % 2^32) : long32 n < 0 := by
  unfold long32; rw [Int.bmod]; split <;> omega

/-- number of bytes of each vector -/
def Val.vecs : Val → List Nat
  | .done => []
  | .pod _ _ rest => rest.vecs
  | .vec _ _ xs rest => xs.flatten.length :: rest.vecs
  | .obj _ inner rest => inner.vecs ++ rest.vecs

/-- bytes that are left out -/
def lost (ns : List Nat) : Nat := (ns.map fun n => n / 2^32 * 2^32).sum

theorem lost_append (a b : List Nat) : lost (a ++ b) = lost a + lost b := by simp [lost]
theorem lost_cons (n : Nat) (b : List Nat) : lost (n :: b) = n / 2^32 * 2^32 + lost b := by simp [lost]

theorem freezeVL_none (v : Val) (h : v.WF) (hn : ∃ n ∈ v.vecs, 2^31 ≤ n % 2^32) (o : Out) : freezeVL v o = none := by
  induction v generalizing o with
  | done => obtain ⟨n, h1, _⟩ := hn; simp [Val.vecs] at h1
  | pod n bs rest ih => rw [freezeVL]; exact ih h hn _
  | vec n es xs rest ih =>
    obtain ⟨h1, h2, h2', h3⟩ := h
    have hl := flatten_length h1
    rw [freezeVL]
    simp only [Nat.mod_eq_of_lt h2']
    by_cases hc : 2^31 ≤ (xs.length * es) % 2^32
    · have := long32_neg hc
      rw [assertP, if_neg (by omega)]; rfl
    · rw [long32_small (by omega), assertP_eq _ (Int.natCast_nonneg _), bind_pure_some]
      obtain ⟨k, h4, h5⟩ := hn
      rw [Val.vecs, List.mem_cons, hl] at h4
      rcases h4 with rfl | h4
      · exact absurd h5 hc
      · cases rdBytes xs.flatten 0 _ with
        | none => rfl
        | some d => rw [bind_pure_some]; exact ih h3 ⟨k, h4, h5⟩ _
  | obj n inner rest ih1 ih2 =>
    rw [freezeVL]
    obtain ⟨k, h4, h5⟩ := hn
    rw [Val.vecs, List.mem_append] at h4
    rcases h4 with h4 | h4
    · rw [ih1 h.1 ⟨k, h4, h5⟩]; rfl
    · cases freezeVL inner o with
      | none => rfl
      | some d => rw [bind_pure_some]; exact ih2 h.2 ⟨k, h4, h5⟩ _

theorem freezeVL_some (v : Val) (h : v.WF) (hn : ∀ n ∈ v.vecs, n % 2^32 < 2^31) (o : Out) :
    ∃ bs, freezeVL v o = some ⟨o.bytes ++ bs, o.written + v.flat.length⟩ ∧ bs.length + lost v.vecs = v.flat.length := by
  induction v generalizing o with
  | done => exact ⟨[], by simp [freezeVL, Val.flat], rfl⟩
  | pod n bs rest ih =>
    obtain ⟨cs, h1, h2⟩ := ih h hn (o.put bs bs.length)
    refine ⟨bs ++ cs, ?_, ?_⟩
    · rw [freezeVL, h1]; simp [Out.put, Val.flat, Nat.add_assoc]
    · rw [Val.flat, Val.vecs, List.length_append, List.length_append]; omega
  | vec n es xs rest ih =>
    obtain ⟨h1, h2, h2', h3⟩ := h
    have hl := flatten_length h1
    have hc := hn xs.flatten.length (by simp [Val.vecs])
    rw [hl] at hc
    have hr : rdBytes xs.flatten 0 (xs.length * es % 2^32) = some (xs.flatten.take (xs.length * es % 2^32)) := by
      rw [rdBytes, if_pos (by rw [hl]; have := Nat.mod_le (xs.length * es) (2^32); omega)]; rfl
    obtain ⟨cs, e1, e2⟩ := ih h3 (fun k hk => hn k (by simp [Val.vecs, hk]))
      ((o.put (leEnc 8 xs.length) 8).put (xs.flatten.take (xs.length * es % 2^32)) (xs.length * es))
    refine ⟨leEnc 8 xs.length ++ xs.flatten.take (xs.length * es % 2^32) ++ cs, ?_, ?_⟩
    · rw [freezeVL]
      simp only [Nat.mod_eq_of_lt h2']
      rw [long32_small hc, assertP_eq _ (Int.natCast_nonneg _), bind_pure_some, Int.toNat_natCast, hr, bind_pure_some, e1]
      simp [Out.put, Val.flat, leEnc_length, hl, Nat.add_assoc]
    · rw [Val.flat, Val.vecs, lost_cons, hl]
      simp only [List.length_append, leEnc_length, List.length_take, hl]
      have := Nat.mod_le (xs.length * es) (2^32)
      have := Nat.div_add_mod (xs.length * es) (2^32)
      rw [Nat.min_eq_left (by assumption)]
      omega
  | obj n inner rest ih1 ih2 =>
    obtain ⟨cs, e1, e2⟩ := ih1 h.1 (fun k hk => hn k (by simp [Val.vecs, hk])) o
    obtain ⟨ds, f1, f2⟩ := ih2 h.2 (fun k hk => hn k (by simp [Val.vecs, hk])) ⟨o.bytes ++ cs, o.written + inner.flat.length⟩
    refine ⟨cs ++ ds, ?_, ?_⟩
    · rw [freezeVL, e1, bind_pure_some, f1]; simp [Val.flat, Nat.add_assoc]
    · rw [Val.flat, Val.vecs, lost_append, List.length_append, List.length_append]; omega

theorem freezeVL_same (v : Val) (h : v.WF) (hn : ∀ n ∈ v.vecs, n < 2^31) (o : Out) : freezeVL v o = freezeV v o := by
  induction v generalizing o with
  | done => rw [freezeVL, freezeV]
  | pod n bs rest ih => rw [freezeVL, freezeV, ih h hn]
  | vec n es xs rest ih =>
    obtain ⟨h1, h2, h2', h3⟩ := h
    have hl := flatten_length h1
    have hc := hn xs.flatten.length (by simp [Val.vecs])
    rw [hl] at hc
    have hs : long32 (xs.length * es % 2^64) = ((xs.length * es % 2^64 : Nat) : Int) := by
      have e : xs.length * es % 2^64 = xs.length * es := Nat.mod_eq_of_lt h2'
      have e2 : xs.length * es % 2^32 = xs.length * es := Nat.mod_eq_of_lt (Nat.lt_trans hc (by decide))
      rw [e, long32_small (by rw [e2]; exact hc), e2]
    have ih' := fun o => ih h3 (fun k hk => hn k (by simp [Val.vecs, hk])) o
    rw [freezeVL, freezeV, hs, assertP_eq _ (Int.natCast_nonneg _), bind_pure_some, Int.toNat_natCast]
    simp only [ih']
  | obj n inner rest ih1 ih2 =>
    rw [freezeVL, freezeV, ih1 h.1 (fun k hk => hn k (by simp [Val.vecs, hk]))]
    have ih2' := fun o => ih2 h.2 (fun k hk => hn k (by simp [Val.vecs, hk])) o
    simp only [ih2']

/-! codecs for a `size_t` of `w` bytes -/

namespace Codec

theorem szW_lawful (w : Nat) (n : String) : (szW w n).Lawful :=
  pod_lawful _ _ _ _ _ (fun x _ => leEnc_length w x) (fun x h => by rw [leDec_leEnc, Nat.mod_eq_of_lt h])
theorem szW_onto (w : Nat) (n : String) : (szW w n).Onto := pod_onto _ _ _ _ _ fun bs h => dec_u bs h

theorem bitVectorW_lawful (w : Nat) : (bitVectorW w).Lawful := iso_lawful (seq_lawful (szW_lawful _ _) (vw64_lawful _)) (fun _ => rfl)
theorem rsBitVectorW_lawful (w : Nat) : (rsBitVectorW w).Lawful :=
  iso_lawful (seq_lawful (bitVectorW_lawful w) (seq_lawful (vu64_lawful _) (seq_lawful (vu64_lawful _) (vu64_lawful _)))) (fun _ => rfl)
theorem bpVectorW_lawful (w : Nat) : (bpVectorW w).Lawful :=
  iso_lawful (seq_lawful (rsBitVectorW_lawful w) (seq_lawful (u64_lawful _) (seq_lawful (vi16_lawful _) (vi32_lawful _)))) (fun _ => rfl)
theorem darrayW_lawful (w : Nat) : (darrayW w).Lawful :=
  iso_lawful (seq_lawful (szW_lawful _ _) (seq_lawful (vi64_lawful _) (seq_lawful (vu16_lawful _) (vu64_lawful _)))) (fun _ => rfl)
theorem darray64W_lawful (w : Nat) : (darray64W w).Lawful :=
  iso_lawful (seq_lawful (szW_lawful _ _) (seq_lawful (obj_lawful _ (bitVectorW_lawful w)) (seq_lawful (vu64_lawful _) (vu16_lawful _)))) (fun _ => rfl)
theorem eliasFanoW_lawful (w : Nat) : (eliasFanoW w).Lawful :=
  iso_lawful (seq_lawful (w64_lawful _) (seq_lawful (obj_lawful _ (bitVectorW_lawful w)) (seq_lawful (obj_lawful _ (darrayW_lawful w))
    (seq_lawful (obj_lawful _ (darrayW_lawful w)) (seq_lawful (obj_lawful _ (bitVectorW_lawful w)) (u8_lawful _)))))) (fun _ => rfl)
theorem efListW_lawful (w : Nat) : (efListW w).Lawful := iso_lawful (obj_lawful _ (eliasFanoW_lawful w)) (fun _ => rfl)
theorem efCompressedListW_lawful (w : Nat) : (efCompressedListW w).Lawful :=
  iso_lawful (seq_lawful (obj_lawful _ (eliasFanoW_lawful w)) (obj_lawful _ (bitVectorW_lawful w))) (fun _ => rfl)
theorem gammaVectorW_lawful (w : Nat) : (gammaVectorW w).Lawful :=
  iso_lawful (seq_lawful (obj_lawful _ (darray64W_lawful w)) (obj_lawful _ (bitVectorW_lawful w))) (fun _ => rfl)
theorem cartesianTreeW_lawful (w : Nat) : (cartesianTreeW w).Lawful := iso_lawful (obj_lawful _ (bpVectorW_lawful w)) (fun _ => rfl)
theorem nibbleVectorW_lawful (w : Nat) : (nibbleVectorW w).Lawful :=
  iso_lawful (seq_lawful (szW_lawful _ _) (vec_lawful _ 1 (by decide) _ _ _ (fun _ _ => rfl) (fun _ _ => rfl))) (fun _ => rfl)
theorem topKW_lawful (w : Nat) : (topKW w).Lawful :=
  iso_lawful (seq_lawful (vu64_lawful _) (obj_lawful _ (cartesianTreeW_lawful w))) (fun _ => rfl)

theorem bitVectorW_onto (w : Nat) : (bitVectorW w).Onto := iso_onto (seq_onto (szW_onto _ _) (vw64_onto _)) (fun _ => rfl)
theorem rsBitVectorW_onto (w : Nat) : (rsBitVectorW w).Onto :=
  iso_onto (seq_onto (bitVectorW_onto w) (seq_onto (vu64_onto _) (seq_onto (vu64_onto _) (vu64_onto _)))) (fun _ => rfl)
theorem bpVectorW_onto (w : Nat) : (bpVectorW w).Onto :=
  iso_onto (seq_onto (rsBitVectorW_onto w) (seq_onto (u64_onto _) (seq_onto (vi16_onto _) (vi32_onto _)))) (fun _ => rfl)
theorem darrayW_onto (w : Nat) : (darrayW w).Onto :=
  iso_onto (seq_onto (szW_onto _ _) (seq_onto (vi64_onto _) (seq_onto (vu16_onto _) (vu64_onto _)))) (fun _ => rfl)
theorem darray64W_onto (w : Nat) : (darray64W w).Onto :=
  iso_onto (seq_onto (szW_onto _ _) (seq_onto (obj_onto _ (bitVectorW_onto w)) (seq_onto (vu64_onto _) (vu16_onto _)))) (fun _ => rfl)
theorem eliasFanoW_onto (w : Nat) : (eliasFanoW w).Onto :=
  iso_onto (seq_onto (w64_onto _) (seq_onto (obj_onto _ (bitVectorW_onto w)) (seq_onto (obj_onto _ (darrayW_onto w))
    (seq_onto (obj_onto _ (darrayW_onto w)) (seq_onto (obj_onto _ (bitVectorW_onto w)) (u8_onto _)))))) (fun _ => rfl)
theorem efListW_onto (w : Nat) : (efListW w).Onto := iso_onto (obj_onto _ (eliasFanoW_onto w)) (fun _ => rfl)
theorem efCompressedListW_onto (w : Nat) : (efCompressedListW w).Onto :=
  iso_onto (seq_onto (obj_onto _ (eliasFanoW_onto w)) (obj_onto _ (bitVectorW_onto w))) (fun _ => rfl)
theorem gammaVectorW_onto (w : Nat) : (gammaVectorW w).Onto :=
  iso_onto (seq_onto (obj_onto _ (darray64W_onto w)) (obj_onto _ (bitVectorW_onto w))) (fun _ => rfl)
theorem cartesianTreeW_onto (w : Nat) : (cartesianTreeW w).Onto := iso_onto (obj_onto _ (bpVectorW_onto w)) (fun _ => rfl)
theorem nibbleVectorW_onto (w : Nat) : (nibbleVectorW w).Onto :=
  iso_onto (seq_onto (szW_onto _ _) (vec_onto _ _ (by decide) _ _ _ (fun bs h => ⟨trivial, by
    cases bs with
    | nil => simp at h
    | cons b t => cases t with
      | nil => rfl
      | cons _ _ => simp at h⟩))) (fun _ => rfl)
theorem topKW_onto (w : Nat) : (topKW w).Onto :=
  iso_onto (seq_onto (vu64_onto _) (obj_onto _ (cartesianTreeW_onto w))) (fun _ => rfl)

/-- the image of `d` has `4 * k` bytes more than that of `c` -/
def Wider {α : Type} (k : Nat) (c d : Codec α) : Prop :=
  ∀ x r s, ((c.put x r).flat.length : Int) + 4 * k + (s.flat.length - r.flat.length : Int) = (d.put x s).flat.length

theorem wider_pod {α : Type} (k : Nat) (n : String) (a : Nat) (enc : α → List Byte) (dec : List Byte → α) (fits : α → Prop) (d : Codec α)
    (b : Nat) (enc' : α → List Byte) (dec' : List Byte → α) (fits' : α → Prop) (hd : d = pod n b enc' dec' fits')
    (h : ∀ x, (enc x).length + 4 * k = (enc' x).length) : Wider k (pod n a enc dec fits) d := by
  intro x r s
  subst hd
  simp only [pod, Val.flat, List.length_append]
  have := h x
  omega

theorem wider_vec {α : Type} (n : String) (a : Nat) (enc : α → List Byte) (dec : List Byte → α) (fits : α → Prop) :
    Wider 0 (vec n a enc dec fits) (vec n a enc dec fits) := by
  intro x r s
  simp only [vec, Val.flat, List.length_append]
  omega

theorem wider_seq {α β : Type} {k l : Nat} {c d : Codec α} {e f : Codec β} (h : Wider k c d) (h' : Wider l e f) : Wider (k + l) (c ⊳ e) (d ⊳ f) := by
  intro x r s
  have h1 := h x.1 (e.put x.2 r) (f.put x.2 s)
  have h2 := h' x.2 r s
  simp only [seq]
  omega

theorem wider_obj {α : Type} {k : Nat} {c d : Codec α} (n : String) (h : Wider k c d) : Wider k (obj n c) (obj n d) := by
  intro x r s
  have h1 := h x .done .done
  simp only [obj, Val.flat, List.length_append] at h1 ⊢
  omega

theorem wider_iso {α β : Type} {k : Nat} {c d : Codec α} (mk : α → β) (un : β → α) (h : Wider k c d) : Wider k (iso c mk un) (iso d mk un) :=
  fun x r s => h (un x) r s

theorem wider_sz (n : String) : Wider 1 (szW 4 n) (u64 n) :=
  wider_pod 1 n _ _ _ _ _ _ _ _ _ rfl fun x => by rw [leEnc_length, leEnc_length]
theorem wider_u64 (n : String) : Wider 0 (u64 n) (u64 n) := wider_pod 0 n _ _ _ _ _ _ _ _ _ rfl fun x => rfl
theorem wider_w64 (n : String) : Wider 0 (w64 n) (w64 n) := wider_pod 0 n _ _ _ _ _ _ _ _ _ rfl fun x => rfl
theorem wider_u8 (n : String) : Wider 0 (u8 n) (u8 n) := wider_pod 0 n _ _ _ _ _ _ _ _ _ rfl fun x => rfl

theorem wider_bv : Wider 1 (bitVectorW 4) bitVector := wider_iso _ _ (wider_seq (wider_sz _) (wider_vec _ _ _ _ _))
theorem wider_rs : Wider 1 (rsBitVectorW 4) rsBitVector :=
  wider_iso _ _ (wider_seq wider_bv (wider_seq (wider_vec _ _ _ _ _) (wider_seq (wider_vec _ _ _ _ _) (wider_vec _ _ _ _ _))))
theorem wider_bp : Wider 1 (bpVectorW 4) bpVector :=
  wider_iso _ _ (wider_seq wider_rs (wider_seq (wider_u64 _) (wider_seq (wider_vec _ _ _ _ _) (wider_vec _ _ _ _ _))))
theorem wider_darray : Wider 1 (darrayW 4) darray :=
  wider_iso _ _ (wider_seq (wider_sz _) (wider_seq (wider_vec _ _ _ _ _) (wider_seq (wider_vec _ _ _ _ _) (wider_vec _ _ _ _ _))))
theorem wider_darray64 : Wider 2 (darray64W 4) darray64 :=
  wider_iso _ _ (wider_seq (wider_sz _) (wider_seq (wider_obj _ wider_bv) (wider_seq (wider_vec _ _ _ _ _) (wider_vec _ _ _ _ _))))
theorem wider_ef : Wider 4 (eliasFanoW 4) eliasFano :=
  wider_iso _ _ (wider_seq (wider_w64 _) (wider_seq (wider_obj _ wider_bv) (wider_seq (wider_obj _ wider_darray)
    (wider_seq (wider_obj _ wider_darray) (wider_seq (wider_obj _ wider_bv) (wider_u8 _))))))
theorem wider_efList : Wider 4 (efListW 4) efList := wider_iso _ _ (wider_obj _ wider_ef)
theorem wider_efc : Wider 5 (efCompressedListW 4) efCompressedList := wider_iso _ _ (wider_seq (wider_obj _ wider_ef) (wider_obj _ wider_bv))
theorem wider_gamma : Wider 3 (gammaVectorW 4) gammaVector := wider_iso _ _ (wider_seq (wider_obj _ wider_darray64) (wider_obj _ wider_bv))
theorem wider_cart : Wider 1 (cartesianTreeW 4) cartesianTree := wider_iso _ _ (wider_obj _ wider_bp)
theorem wider_nibble : Wider 1 (nibbleVectorW 4) nibbleVector := wider_iso _ _ (wider_seq (wider_sz _) (wider_vec _ _ _ _ _))
theorem wider_topk : Wider 1 (topKW 4) (topK (vu64 "m_v")) := wider_iso _ _ (wider_seq (wider_vec _ _ _ _ _) (wider_obj _ wider_cart))

end Codec
end Succinct.Mapper
