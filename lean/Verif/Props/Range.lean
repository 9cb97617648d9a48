import Verif.Lemmas.Range
import Verif.Props.EliasFano
import Verif.Props.Gamma
import Verif.Lemmas.Contract

/-! # C80: compressed lists from ranges of any integer type -/
namespace Succinct
open Spec (IntType)

theorem ofInt_toNat (x : Int) : ((BitVec.ofInt 64 x).toNat : Int) = x % 2^64 := by
  rw [BitVec.toNat_ofInt]; omega

theorem ne_allOnes_iff (y : Word) : y ≠ BitVec.allOnes 64 ↔ y.toNat < 2^64 - 1 := by
  have := y.isLt
  rw [Ne, BitVec.toNat_eq, BitVec.toNat_allOnes]
  omega

/-- **C80** (`elias_fano_compressed_list`).  From a range whose values have any fixed-width integer type `t` the construction succeeds exactly when
every `x + 1` fits the promoted type of `t` and no value is `-1`; the list then returns every value, converted to `uint64_t`. -/
theorem C80_compressed_list (t : IntType) (ht : t.Std) (v : List Int) (hv : ∀ x ∈ v, t.Has x) (hl : v.length < 2^57) :
    ((EFCompressedList.buildRange t v).isSome = true ↔ ∀ x ∈ v, t.Storable 1 x) ∧
    ∀ l, EFCompressedList.buildRange t v = some l → l.size = some v.length ∧
      ∀ ov i, ∀ h : i < v.length, ∃ w : Word, l.get ov i = some w ∧ (w.toNat : Int) = v[i] % 2^64 := by
  have good : (∀ x ∈ v, t.Storable 1 x) → EFCompressedList.buildRange t v = EFCompressedList.build (v.map (BitVec.ofInt 64)) ∧
      ∀ y ∈ v.map (BitVec.ofInt 64), y ≠ BitVec.allOnes 64 := by
    intro hs
    obtain ⟨s, h1, h2⟩ := sumsK_storable ht hv hs
    refine ⟨?_, ?_⟩
    · unfold EFCompressedList.buildRange
      rw [h1, RSBitVector.bind_pure_some]
      exact congrArg _ h2
    · intro y hy
      obtain ⟨x, hx, rfl⟩ := List.mem_map.1 hy
      rw [ne_allOnes_iff]
      exact storable_lt ht (hv x hx) (by omega) (by omega) (hs x hx)
  have bad : ∀ l, EFCompressedList.buildRange t v = some l → ∀ x ∈ v, t.Storable 1 x := by
    intro l hb
    unfold EFCompressedList.buildRange at hb
    simp only [Option.bind_eq_bind, Option.bind_eq_some_iff] at hb
    obtain ⟨s, h1, h2⟩ := hb
    exact storable_of_sums ht hv (by omega) (by omega) h1 fun y hy => (ne_allOnes_iff y).1 (EFCompressedList.build_some h2 y hy)
  refine ⟨⟨fun h => ?_, fun hs => ?_⟩, fun l hb => ?_⟩
  · obtain ⟨l, hb⟩ := Option.isSome_iff_exists.1 h
    exact bad l hb
  · obtain ⟨g1, g2⟩ := good hs
    obtain ⟨l, e, _⟩ := C27_compressed_list _ g2 (by rw [List.length_map]; exact hl)
    rw [g1, e]; rfl
  · obtain ⟨g1, g2⟩ := good (bad l hb)
    obtain ⟨l', e, e2, e3⟩ := C27_compressed_list _ g2 (by rw [List.length_map]; exact hl)
    rw [g1, e] at hb
    cases hb
    rw [List.length_map] at e2 e3
    exact ⟨e2, fun ov i h => ⟨_, by rw [e3 ov i h, List.getElem?_map, List.getElem?_eq_getElem h]; rfl, ofInt_toNat _⟩⟩

/-- **C80** (`gamma_vector`) -/
theorem C80_gamma_vector (t : IntType) (ht : t.Std) (v : List Int) (hv : ∀ x ∈ v, t.Has x) :
    ((GammaVector.buildRange t v).isSome = true ↔ ∀ x ∈ v, t.Storable 1 x) ∧
    ∀ l, GammaVector.buildRange t v = some l → l.size = some v.length ∧
      ∀ ov i, ∀ h : i < v.length, ∃ w : Word, GammaVector.get ov l i = some w ∧ (w.toNat : Int) = v[i] % 2^64 := by
  have good : (∀ x ∈ v, t.Storable 1 x) → GammaVector.buildRange t v = GammaVector.build (v.map (BitVec.ofInt 64)) ∧
      ∀ y ∈ v.map (BitVec.ofInt 64), y ≠ BitVec.allOnes 64 := by
    intro hs
    obtain ⟨s, h1, h2⟩ := sumsK_storable ht hv hs
    refine ⟨?_, ?_⟩
    · unfold GammaVector.buildRange
      rw [h1, RSBitVector.bind_pure_some]
      exact congrArg _ h2
    · intro y hy
      obtain ⟨x, hx, rfl⟩ := List.mem_map.1 hy
      rw [ne_allOnes_iff]
      exact storable_lt ht (hv x hx) (by omega) (by omega) (hs x hx)
  have bad : ∀ l, GammaVector.buildRange t v = some l → ∀ x ∈ v, t.Storable 1 x := by
    intro l hb
    unfold GammaVector.buildRange at hb
    simp only [Option.bind_eq_bind, Option.bind_eq_some_iff] at hb
    obtain ⟨s, h1, h2⟩ := hb
    exact storable_of_sums ht hv (by omega) (by omega) h1 fun y hy => (ne_allOnes_iff y).1 (GammaVector.build_some h2 y hy)
  refine ⟨⟨fun h => ?_, fun hs => ?_⟩, fun l hb => ?_⟩
  · obtain ⟨l, hb⟩ := Option.isSome_iff_exists.1 h
    exact bad l hb
  · obtain ⟨g1, g2⟩ := good hs
    obtain ⟨l, e, _⟩ := C28_gamma_vector _ g2
    rw [g1, e]; rfl
  · obtain ⟨g1, g2⟩ := good (bad l hb)
    obtain ⟨l', e, e2, e3⟩ := C28_gamma_vector _ g2
    rw [g1, e] at hb
    cases hb
    rw [List.length_map] at e2 e3
    exact ⟨e2, fun ov i h => ⟨_, by rw [e3 ov i h, List.getElem?_map, List.getElem?_eq_getElem h]; rfl, ofInt_toNat _⟩⟩

/-- **C80** (`gamma_bit_vector`): here every `x + 2` must fit the promoted type, and neither `-1` nor `-2` can be stored. -/
theorem C80_gamma_bit_vector (t : IntType) (ht : t.Std) (v : List Int) (hv : ∀ x ∈ v, t.Has x) :
    ((GammaBitVector.buildRange t v).isSome = true ↔ ∀ x ∈ v, t.Storable 2 x) ∧
    ∀ l, GammaBitVector.buildRange t v = some l → l.size = some v.length ∧
      ∀ ov i, ∀ h : i < v.length, ∃ w : Word, GammaBitVector.get ov l i = some w ∧ (w.toNat : Int) = v[i] % 2^64 := by
  have good : (∀ x ∈ v, t.Storable 2 x) → GammaBitVector.buildRange t v = GammaBitVector.build (v.map (BitVec.ofInt 64)) ∧
      ∀ y ∈ v.map (BitVec.ofInt 64), y.toNat < 2^64 - 2 := by
    intro hs
    obtain ⟨s, h1, h2⟩ := sumsK_storable ht hv hs
    refine ⟨?_, ?_⟩
    · unfold GammaBitVector.buildRange
      rw [h1, RSBitVector.bind_pure_some]
      exact congrArg _ h2
    · intro y hy
      obtain ⟨x, hx, rfl⟩ := List.mem_map.1 hy
      exact storable_lt ht (hv x hx) (by omega) (by omega) (hs x hx)
  have bad : ∀ l, GammaBitVector.buildRange t v = some l → ∀ x ∈ v, t.Storable 2 x := by
    intro l hb
    unfold GammaBitVector.buildRange at hb
    simp only [Option.bind_eq_bind, Option.bind_eq_some_iff] at hb
    obtain ⟨s, h1, h2⟩ := hb
    exact storable_of_sums ht hv (by omega) (by omega) h1 fun y hy => GammaBitVector.build_some h2 y hy
  refine ⟨⟨fun h => ?_, fun hs => ?_⟩, fun l hb => ?_⟩
  · obtain ⟨l, hb⟩ := Option.isSome_iff_exists.1 h
    exact bad l hb
  · obtain ⟨g1, g2⟩ := good hs
    obtain ⟨l, e, _⟩ := C29_gamma_bit_vector _ g2
    rw [g1, e]; rfl
  · obtain ⟨g1, g2⟩ := good (bad l hb)
    obtain ⟨l', e, e2, e3⟩ := C29_gamma_bit_vector _ g2
    rw [g1, e] at hb
    cases hb
    rw [List.length_map] at e2 e3
    exact ⟨e2, fun ov i h => ⟨_, by rw [e3 ov i h, List.getElem?_map, List.getElem?_eq_getElem h]; rfl, ofInt_toNat _⟩⟩

/-- ranges of 8- or 16-bit unsigned values can always be stored -/
theorem C80_small (t : IntType) (ht : t.bits = 8 ∨ t.bits = 16) (hs : t.signed = false) (x : Int) (hx : t.Has x) : t.Storable 1 x ∧ t.Storable 2 x := by
  obtain ⟨b, s⟩ := t
  dsimp only at ht hs
  subst hs
  obtain ⟨h1, h2⟩ := hx
  unfold IntType.Storable
  unfold IntType.min at h1
  unfold IntType.max at h2
  unfold IntType.promote
  rcases ht with h | h <;> subst h <;> simp [IntType.max] at h1 h2 ⊢ <;> omega

/-- **C80, the limit.**  "A value of the range below `2^64 - 2` can be stored" is false: `4294967295` of a `std::vector<uint32_t>` wraps to `0` when incremented,
and `2147483647` of a `std::vector<int>` overflows; as `uint64_t` both can be stored. -/
theorem C80_uint32_false :
    EFCompressedList.buildRange ⟨32, false⟩ [4294967295] = none ∧ GammaVector.buildRange ⟨32, false⟩ [4294967295] = none ∧
    GammaBitVector.buildRange ⟨32, false⟩ [4294967294] = none ∧ GammaVector.buildRange ⟨32, true⟩ [2147483647] = none ∧
    (GammaVector.buildRange ⟨64, false⟩ [4294967295, 2147483647]).bind (fun g => GammaVector.get (fun _ _ => 0) g 0) = some 4294967295 := by
  decide +kernel

example : (⟨32, false⟩ : IntType).Std ∧ (⟨32, false⟩ : IntType).Has 4294967294 ∧ (⟨32, false⟩ : IntType).Storable 1 4294967294 ∧
    ¬ (⟨32, false⟩ : IntType).Storable 2 4294967294 ∧ (⟨8, true⟩ : IntType).Has (-3) ∧ (⟨8, true⟩ : IntType).Storable 2 (-3) := by
  simp [IntType.Std, IntType.Has, IntType.Storable, IntType.min, IntType.max, IntType.promote]

example : (GammaVector.buildRange ⟨8, true⟩ [7, -3, 127]).bind (fun g => GammaVector.get (fun _ _ => 0) g 1) = some 0xfffffffffffffffd ∧
    (EFCompressedList.buildRange ⟨8, false⟩ [255, 0]).bind (fun g => g.get (fun _ _ => 0) 0) = some 255 := by
  decide +kernel

end Succinct
