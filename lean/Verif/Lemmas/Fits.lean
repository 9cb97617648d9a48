import Verif.Lemmas.SpaceRS
import Verif.Lemmas.SpaceGamma
import Verif.Lemmas.Nibble
import Verif.Model.Mapper
import Verif.Model.TopK

/-! Every field of a structure built by its constructor is representable in its C++ type. -/
namespace Succinct.Mapper.Codec
open Succinct

theorem bitVector_fits {v : BitVector} (h1 : v.size < 2^64) (h2 : v.bits.length < 2^60) : bitVector.fits v :=
  ⟨h1, h2, fun _ _ => trivial⟩

theorem ofRange_fits {l : List Bool} (h : l.length < 2^60) : bitVector.fits (BitVector.ofRange l) := by
  have hr := BitVector.ofRange_rep l
  exact bitVector_fits (by rw [hr.size]; omega) (by rw [hr.len]; omega)

theorem rsBitVector_fits {v : RSBitVector} {l : List Bool} {a b : Bool} (h : v.Shape l a b) (hl : l.length < 2^60) : rsBitVector.fits v := by
  have hc := List.count_le_length (a := true) (l := l)
  refine ⟨by simp only []; rw [h.bv]; exact ofRange_fits hl, ⟨by simp only []; rw [h.pairs]; omega, fun x hx => ?_⟩,
    ⟨by simp only []; rw [h.hints]; split <;> omega, fun x hx => ?_⟩, ⟨by simp only []; rw [h.hints0]; split <;> omega, fun x hx => ?_⟩⟩
  · have := h.pairsB x hx; simp only []; omega
  · have := h.hintsB x hx; simp only []; omega
  · have := h.hints0B x hx; simp only []; omega

theorem bpVector_fits {v : BpVector} {rs : RSBitVector} (h : v.Shape rs) (hr : rsBitVector.fits rs) : bpVector.fits v := by
  have hw : rs.bv.bits.length < 2^60 := hr.1.2.1
  have h1 := h.bl
  have h2 := h.sl
  have h3 := h.int
  refine ⟨by simp only []; rw [h.rsEq]; exact hr, by show v.internalNodes < 2^64; omega, ⟨by simp only []; omega, h.blk⟩, ⟨by simp only []; omega, h.sup⟩⟩

theorem darray_fits {d : Darray} {N : Nat} (h : Darray.FInv d.inv N N) (hN : N < 2^60) (hp : d.positions ≤ N)
    (hb : d.inv.block.length = (d.positions + 1023)/1024) (hs : d.inv.subblock.length = (d.positions + 31)/32) : darray.fits d := by
  have ho := h.ov
  refine ⟨by show d.positions < 2^64; omega, ⟨by simp only []; omega, fun x hx => ?_⟩, ⟨by simp only []; omega, h.subr⟩, ⟨by simp only []; omega, fun x hx => ?_⟩⟩
  · have := h.blk x hx; simp only []; omega
  · have := h.ovr x hx; simp only []; omega

theorem darray_build_fits {neg : Bool} {l : List Bool} {d : Darray} (h : Darray.build neg (BitVector.ofRange l) = some d) (hl : l.length < 2^60) :
    darray.fits d := by
  have hr := BitVector.ofRange_rep l
  have hs := hr.size
  have hw := hr.len
  obtain ⟨h1, h2, h3, h4⟩ := EliasFano.darray_shape (by omega) h
  rw [hs] at h1 h2
  exact darray_fits h1 hl h2 h3 h4

theorem darray64_fits {d : Darray64} {n s : Nat} (h : d.Shape n s) (hs : s < 2^60) : darray64.fits d := by
  have h1 := h.bl
  have h2 := h.sl
  have h3 := h.wl
  have h4 := h.le
  have h5 := h.ones
  have h6 := h.size
  refine ⟨by show d.numOnes < 2^64; omega, bitVector_fits (by simp only []; omega) (by simp only []; omega), ⟨by simp only []; omega, fun x hx => ?_⟩,
    ⟨by simp only []; omega, h.sub⟩⟩
  have := h.blk x hx; simp only []; omega

theorem eliasFano_fits {ef : EliasFano} {n : Word} {m k : Nat} (h : ef.Shape n m k) (hH : ef.high.size < 2^60) (hL : ef.low.size < 2^60) :
    eliasFano.fits ef := by
  have h1 := h.highW
  have h2 := h.lowW
  have h3 := h.l64
  exact ⟨trivial, bitVector_fits (by simp only []; omega) (by simp only []; omega), darray_fits h.d1 hH h.d1p h.d1b h.d1s,
    darray_fits h.d0 hH h.d0p h.d0b h.d0s, bitVector_fits (by simp only []; omega) (by simp only []; omega), by show ef.l < 2^8; omega⟩

/-- the high part is short if the capacity is -/
theorem shape_high {ef : EliasFano} {n : Word} {m k : Nat} (h : ef.Shape n m k) (hm : 0 < m) (hm2 : m < 2^57) : ef.high.size < 2^60 := by
  have h1 := EFBuilder.lowLen_high h.hl hm
  have h2 := h.high
  rw [Nat.mod_eq_of_lt (by omega)] at h2
  omega

theorem shape_low {ef : EliasFano} {n : Word} {m k : Nat} (h : ef.Shape n m k) (hk : k < 2^54) : ef.low.size < 2^60 := by
  have h1 := h.low
  have h2 := h.l64
  have : k * ef.l ≤ k * 64 := Nat.mul_le_mul_left k (by omega)
  omega

theorem nibbleVector_fits {l : List Nat} {v : NibbleVector} (h : NibbleVector.build l = some v) (hl : l.length + 1 < 2^60) :
    nibbleVector.fits v := by
  have hs : ∀ (l : List Nat) (s s' : NibbleVector.St), l.foldlM NibbleVector.step s = some s' →
      s'.size = s.size + l.length ∧ s'.nibbles.length ≤ s.nibbles.length + l.length := by
    intro l
    induction l with
    | nil => intro s s' h; simp only [List.foldlM_nil, Option.pure_def, Option.some.injEq] at h; subst h; simp
    | cons x l ih =>
      intro s s' h
      rw [List.foldlM_cons] at h
      simp only [Option.bind_eq_bind, Option.bind_eq_some_iff] at h
      obtain ⟨s1, e1, h⟩ := h
      have h1 : s1.size = s.size + 1 ∧ s1.nibbles.length ≤ s.nibbles.length + 1 := by
        unfold NibbleVector.step at e1
        simp only [Option.bind_eq_bind, Option.bind_eq_some_iff] at e1
        obtain ⟨u, _, e1⟩ := e1
        split at e1 <;> simp only [Option.pure_def, Option.some.injEq] at e1 <;> subst e1 <;> simp
      have h2 := ih s1 s' h
      rw [List.length_cons]; omega
  unfold NibbleVector.build at h
  simp only [Option.bind_eq_bind, Option.bind_eq_some_iff] at h
  obtain ⟨s, e, h⟩ := h
  obtain ⟨h1, h2⟩ := hs l _ _ e
  simp only [List.length_nil, Nat.zero_add] at h1 h2
  split at h <;> simp only [Option.pure_def, Option.some.injEq] at h <;> subst h
  · exact ⟨by show s.size < 2^64; omega, by simp only [List.length_append, List.length_singleton]; omega, fun _ _ => trivial⟩
  · exact ⟨by show s.size < 2^64; omega, by simp only []; omega, fun _ _ => trivial⟩

end Succinct.Mapper.Codec
