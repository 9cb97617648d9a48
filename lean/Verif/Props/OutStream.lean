import Verif.Model.OutStream
import Verif.Props.Stream

/-! # C88: freezing to a stream that fails

Neither `freeze` function looks at the state of the stream.  The count it returns therefore says nothing about the file. -/
namespace Succinct
open Mapper Spec

namespace Mapper

/-- what a stream that may have failed holds, compared with one that has not -/
structure SOut.Of (s : SOut) (o : Out) : Prop where
  written : s.written = o.written
  file : s.stream.file <+: o.bytes
  good : s.stream.good = true → s.stream.file = o.bytes

theorem SOut.Of.put {s : SOut} {o : Out} (h : s.Of o) (bs : List Byte) (n : Nat) : (s.put bs n).Of (o.put bs n) := by
  unfold SOut.put Out.put OStream.write
  refine ⟨by rw [h.written], ?_, ?_⟩ <;> simp only []
  · by_cases hg : s.stream.good = true
    · rw [if_pos hg]
      cases s.fates 0 with
      | ok => simp only []; rw [h.good hg]; exact List.prefix_refl _
      | fail k => simp only []; rw [h.good hg]; exact List.take_prefix _ _
    · rw [if_neg hg]
      exact h.file.trans (List.prefix_append _ _)
  · by_cases hg : s.stream.good = true
    · rw [if_pos hg]
      cases s.fates 0 with
      | ok => simp only []; rw [h.good hg]; exact fun _ => rfl
      | fail k => simp only []; intro h; cases h
    · rw [if_neg hg]
      exact fun h => absurd h hg

theorem freezeS_of : ∀ (v : Val) (s : SOut) (o r : Out), s.Of o → freezeV v o = some r → ∃ t, freezeS v s = some t ∧ t.Of r
  | .done, s, o, r, h, e => by
    cases e
    exact ⟨s, rfl, h⟩
  | .pod _ bs rest, s, o, r, h, e => freezeS_of rest _ _ r (h.put _ _) e
  | .vec _ es xs rest, s, o, r, h, e => by
    unfold freezeV at e
    unfold freezeS
    obtain ⟨d, e1, e2⟩ := bind_some e
    simp only [e1]
    exact freezeS_of rest _ _ r ((h.put _ _).put _ _) e2
  | .obj _ inner rest, s, o, r, h, e => by
    unfold freezeV at e
    unfold freezeS
    obtain ⟨o1, e1, e2⟩ := bind_some e
    obtain ⟨t, k1, k2⟩ := freezeS_of inner s o o1 h e1
    rw [k1]
    exact freezeS_of rest t o1 r k2 e2

theorem freezeStream_of {x : Val} {flags : Nat} {s r : _} (s0 : OStream) (fates : Nat → Fate) (hs : s0.file <+: s) (hg : s0.good = true → s0.file = s)
    (h : freezeTo x flags s = some r) :
    ∃ t, freezeStream x s0 flags fates = some (t, r.written) ∧ t.file <+: r.bytes ∧ (t.good = true → t.file = r.bytes) := by
  obtain ⟨t, k1, k2⟩ := freezeS_of x _ _ r (SOut.Of.put (s := ⟨s0, 0, fates⟩) (o := ⟨s, 0⟩) ⟨rfl, hs, hg⟩ (leEnc 8 flags) 8) h
  refine ⟨t.stream, ?_, k2.file, k2.good⟩
  unfold freezeStream
  rw [k1]
  show some (t.stream, t.written) = _
  rw [k2.written]

/-- once the state is bad nothing changes -/
theorem freezeS_bad : ∀ (v : Val) (s t : SOut), s.stream.good = false → freezeS v s = some t → t.stream = s.stream
  | .done, s, t, h, e => by cases e; rfl
  | .pod _ bs rest, s, t, h, e => by
    have hp : (s.put bs bs.length).stream = s.stream := by unfold SOut.put OStream.write; simp only [h]; rfl
    unfold freezeS at e
    rw [freezeS_bad rest _ t (by rw [hp]; exact h) e, hp]
  | .vec _ es xs rest, s, t, h, e => by
    unfold freezeS at e
    obtain ⟨d, e1, e2⟩ := bind_some e
    have hp : ∀ (bs : List Byte) (n : Nat) (s : SOut), s.stream.good = false → (s.put bs n).stream = s.stream := by
      intro bs n s h
      unfold SOut.put OStream.write; simp only [h]; rfl
    have h1 := hp (leEnc 8 xs.length) 8 s h
    have h2 := hp d (xs.length * es % 2^64) (s.put (leEnc 8 xs.length) 8) (by rw [h1]; exact h)
    rw [freezeS_bad rest _ t (by rw [h2, h1]; exact h) e2, h2, h1]
  | .obj _ inner rest, s, t, h, e => by
    unfold freezeS at e
    obtain ⟨o1, e1, e2⟩ := bind_some e
    have h1 := freezeS_bad inner s o1 h e1
    rw [freezeS_bad rest o1 t (by rw [h1]; exact h) e2, h1]

end Mapper

/-- What freezing `x` to a stream and to a file that may fail does.  `image` is what freezing writes when nothing fails. -/
structure Spec.FreezeReport {α : Type} (c : Codec α) (x : α) (name : String) (flags : Nat) : Prop where
  /-- with a stream that holds `s`: the returned count is that of a complete image, and what the stream holds is cut off somewhere unless its state is good afterwards -/
  stream : ∀ (s : List Byte) (fates : Nat → Fate), ∃ image t, freeze (top c name x) flags = some image ∧
    freezeStream (top c name x) ⟨s, true⟩ flags fates = some (t, sizeBytes (top c "" x) + 8) ∧ t.file <+: s ++ image.bytes ∧ (t.good = true → t.file = s ++ image.bytes)
  /-- with a file name: the returned count is that of a complete image, and the file holds a prefix of the image, or is unchanged if it could not be opened -/
  file : ∀ (old : List Byte) (opened : Bool) (fates : Nat → Fate) (last : Fate), ∃ image f, freeze (top c name x) flags = some image ∧
    freezeFile (top c name x) old opened flags fates last = some (f, sizeBytes (top c "" x) + 8) ∧ (if opened then f <+: image.bytes else f = old)
  /-- a file that is a proper prefix of the image does not yield an object: mapping it leaves it -/
  unusable : ∀ (image : Out) (f : List Byte) (mflags : Word) (m : MVal) (n : Nat), freeze (top c name x) flags = some image → f <+: image.bytes → f ≠ image.bytes →
    map (topLay c name) f mflags = some (m, n) → load f m = none

/-- **C88**, for every class whose `map` member satisfies C41 and C52 -/
theorem C88_freeze {α : Type} (c : Codec α) (ha : Accounts c) (ht : DetectsTruncation c) (x : α) (hx : c.fits x) (name : String) (flags : Nat) :
    FreezeReport c x name flags := by
  obtain ⟨out, m, e, hw, _, hsz⟩ := ha x hx flags 0 name []
  refine ⟨fun s fates => ?_, fun old opened fates last => ?_, fun image f mflags m n e' hp hne hm => ?_⟩
  · have hto : freezeTo (top c name x) flags s = some ⟨s ++ out.bytes, out.written⟩ := by rw [freezeTo_eq, e]; rfl
    obtain ⟨t, k1, k2, k3⟩ := freezeStream_of ⟨s, true⟩ fates (List.prefix_refl s) (fun _ => rfl) hto
    exact ⟨out, t, e, by rw [k1, hsz, ← hw], k2, k3⟩
  · have hto : freezeTo (top c name x) flags [] = some ⟨[] ++ out.bytes, out.written⟩ := by rw [freezeTo_eq, e]; rfl
    cases opened with
    | true =>
      obtain ⟨t, k1, k2, _⟩ := freezeStream_of ⟨[], true⟩ fates (List.prefix_refl []) (fun _ => rfl) hto
      refine ⟨out, t.close last, e, ?_, ?_⟩
      · unfold freezeFile
        simp only [if_true]
        rw [k1, hsz, ← hw]; rfl
      · simp only [if_true]
        unfold OStream.close
        cases last with
        | ok => exact k2
        | fail k => exact (List.take_prefix _ _).trans k2
    | false =>
      have hto : freezeTo (top c name x) flags old = some ⟨old ++ out.bytes, out.written⟩ := by rw [freezeTo_eq, e]; rfl
      obtain ⟨t, k1, _, _⟩ := freezeStream_of ⟨old, false⟩ fates (List.prefix_refl old) (fun _ => rfl) hto
      have hb : t = ⟨old, false⟩ := by
        unfold freezeStream at k1
        obtain ⟨o, e1, e2⟩ := bind_some k1
        have hp : (SOut.put ⟨⟨old, false⟩, 0, fates⟩ (leEnc 8 flags) 8).stream = ⟨old, false⟩ := rfl
        have := freezeS_bad _ _ _ (by rw [hp]) e1
        rw [hp] at this
        rw [← this]
        exact (congrArg Prod.fst (Option.some.inj e2)).symm
      subst hb
      refine ⟨out, old, e, ?_, ?_⟩
      · unfold freezeFile
        simp only [Bool.false_eq_true, if_false]
        rw [k1, hsz, ← hw]; rfl
      · simp only [Bool.false_eq_true, if_false]
  · obtain ⟨k, hk⟩ : ∃ k, f = image.bytes.take k := ⟨f.length, (List.prefix_iff_eq_take.1 hp)⟩
    subst hk
    refine ht x hx flags mflags name image e' k ?_ m n hm
    refine Nat.lt_of_not_le fun hc => hne (List.take_of_length_le hc)

/-- **C88** for the classes of the library -/
theorem C88_classes (name : String) (flags : Nat) :
    (∀ x, Codec.bitVector.fits x → FreezeReport Codec.bitVector x name flags) ∧ (∀ x, Codec.rsBitVector.fits x → FreezeReport Codec.rsBitVector x name flags) ∧
    (∀ x, Codec.bpVector.fits x → FreezeReport Codec.bpVector x name flags) ∧ (∀ x, Codec.darray.fits x → FreezeReport Codec.darray x name flags) ∧
    (∀ x, Codec.darray64.fits x → FreezeReport Codec.darray64 x name flags) ∧ (∀ x, Codec.eliasFano.fits x → FreezeReport Codec.eliasFano x name flags) ∧
    (∀ x, Codec.efList.fits x → FreezeReport Codec.efList x name flags) ∧ (∀ x, Codec.efCompressedList.fits x → FreezeReport Codec.efCompressedList x name flags) ∧
    (∀ x, Codec.gammaVector.fits x → FreezeReport Codec.gammaVector x name flags) ∧ (∀ x, Codec.gammaBitVector.fits x → FreezeReport Codec.gammaBitVector x name flags) ∧
    (∀ x, Codec.nibbleVector.fits x → FreezeReport Codec.nibbleVector x name flags) ∧ (∀ x, Codec.cartesianTree.fits x → FreezeReport Codec.cartesianTree x name flags) ∧
    (∀ x, (Codec.topK (Codec.vu64 "m_v")).fits x → FreezeReport (Codec.topK (Codec.vu64 "m_v")) x name flags) :=
  ⟨fun x h => C88_freeze _ C41_bit_vector C52_bit_vector x h name flags, fun x h => C88_freeze _ C41_rs_bit_vector C52_rs_bit_vector x h name flags,
   fun x h => C88_freeze _ C41_bp_vector C52_bp_vector x h name flags, fun x h => C88_freeze _ C41_darray C52_darray x h name flags,
   fun x h => C88_freeze _ C41_darray64 C52_darray64 x h name flags, fun x h => C88_freeze _ C41_elias_fano C52_elias_fano x h name flags,
   fun x h => C88_freeze _ C41_elias_fano_list C52_elias_fano_list x h name flags,
   fun x h => C88_freeze _ C41_elias_fano_compressed_list C52_elias_fano_compressed_list x h name flags,
   fun x h => C88_freeze _ C41_gamma_vector C52_gamma_vector x h name flags, fun x h => C88_freeze _ C41_gamma_bit_vector C52_gamma_bit_vector x h name flags,
   fun x h => C88_freeze _ C41_nibble_vector C52_nibble_vector x h name flags, fun x h => C88_freeze _ C41_cartesian_tree C52_cartesian_tree x h name flags,
   fun x h => C88_freeze _ C41_topk_vector C52_topk_vector x h name flags⟩

/-- **C88**, the count does not tell whether the file is complete: for every object and every number of bytes `k` a run of `freeze` to a file name exists that leaves the first
`k` bytes of the image, and one that leaves the file as it was; both return the size of the complete image. -/
theorem C88_undetected_false {α : Type} (c : Codec α) (ha : Accounts c) (x : α) (hx : c.fits x) (name : String) (flags : Nat) (old : List Byte) :
    ∃ image, freeze (top c name x) flags = some image ∧ image.bytes.length = sizeBytes (top c "" x) + 8 ∧
      (∀ k, ∃ fates last, freezeFile (top c name x) old true flags fates last = some (image.bytes.take k, image.bytes.length)) ∧
      ∀ fates last, freezeFile (top c name x) old false flags fates last = some (old, image.bytes.length) := by
  obtain ⟨out, m, e, hw, _, hsz⟩ := ha x hx flags 0 name []
  refine ⟨out, e, hsz.symm, fun k => ⟨fun _ => .ok, .fail k, ?_⟩, fun fates last => ?_⟩
  · have hto : freezeTo (top c name x) flags [] = some ⟨[] ++ out.bytes, out.written⟩ := by rw [freezeTo_eq, e]; rfl
    obtain ⟨t, k1, _, k3⟩ := freezeStream_of ⟨[], true⟩ (fun _ => .ok) (List.prefix_refl []) (fun _ => rfl) hto
    have hg : ∀ (v : Val) (s t : SOut), (s.stream.good = true ∧ ∀ i, s.fates i = .ok) → freezeS v s = some t → t.stream.good = true ∧ ∀ i, t.fates i = .ok := by
      have hp : ∀ (s : SOut) bs n, (s.stream.good = true ∧ ∀ i, s.fates i = .ok) → ((s.put bs n).stream.good = true ∧ ∀ i, (s.put bs n).fates i = .ok) := by
        intro s bs n h
        unfold SOut.put OStream.write
        refine ⟨?_, fun i => h.2 _⟩
        simp only [h.1, if_true, h.2]
      intro v
      induction v with
      | done => intro s t h e; cases e; exact h
      | pod _ bs rest ih => intro s t h e; exact ih _ t (hp s _ _ h) e
      | vec _ es xs rest ih =>
        intro s t h e
        unfold freezeS at e
        obtain ⟨d, _, e2⟩ := bind_some e
        exact ih _ t (hp _ _ _ (hp _ _ _ h)) e2
      | obj _ inner rest ih1 ih2 =>
        intro s t h e
        unfold freezeS at e
        obtain ⟨o, e1, e2⟩ := bind_some e
        exact ih2 o t (ih1 s o h e1) e2
    have hgood : t.good = true := by
      have k1' := k1
      unfold freezeStream at k1'
      obtain ⟨o, e1, e2⟩ := bind_some k1'
      rw [← show o.stream = t from congrArg Prod.fst (Option.some.inj e2)]
      exact (hg _ _ _ ⟨rfl, fun _ => rfl⟩ e1).1
    unfold freezeFile
    simp only [if_true]
    rw [k1]
    show some (t.close (.fail k), out.written) = _
    unfold OStream.close
    simp only [k3 hgood, hw, List.nil_append]
  · have hto : freezeTo (top c name x) flags old = some ⟨old ++ out.bytes, out.written⟩ := by rw [freezeTo_eq, e]; rfl
    obtain ⟨t, k1, _, _⟩ := freezeStream_of ⟨old, false⟩ fates (List.prefix_refl old) (fun _ => rfl) hto
    have hb : t = ⟨old, false⟩ := by
      unfold freezeStream at k1
      obtain ⟨o, e1, e2⟩ := bind_some k1
      have hp : (SOut.put ⟨⟨old, false⟩, 0, fates⟩ (leEnc 8 flags) 8).stream = ⟨old, false⟩ := rfl
      have := freezeS_bad _ _ _ (by rw [hp]) e1
      rw [hp] at this
      rw [← this]
      exact (congrArg Prod.fst (Option.some.inj e2)).symm
    subst hb
    unfold freezeFile
    simp only [Bool.false_eq_true, if_false]
    rw [k1, ← hw]; rfl

/-! ## cases that meet the hypotheses -/

/-- the third write, of the number of words, fails after two of its bytes -/
example : freezeStream (top Codec.bitVector "<TOP>" ⟨70, [5, 1]⟩) ⟨[], true⟩ 3 (fun i => if i = 2 then .fail 18 else .ok) =
    some (⟨(leEnc 8 3 ++ leEnc 8 70 ++ leEnc 8 2).take 18, false⟩, 40) := by decide +kernel
example : freezeFile (top Codec.bitVector "<TOP>" ⟨70, [5, 1]⟩) [1, 2] false 3 (fun _ => .ok) .ok = some ([1, 2], 40) := by decide +kernel
example : freezeFile (top Codec.bitVector "<TOP>" ⟨70, [5, 1]⟩) [1, 2] true 3 (fun _ => .ok) (.fail 9) = some ([3, 0, 0, 0, 0, 0, 0, 0, 70], 40) := by decide +kernel
example : Codec.bitVector.fits ⟨70, [5, 1]⟩ := bitVector_fits_ex

end Succinct
