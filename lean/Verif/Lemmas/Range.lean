import Verif.Model.Range
import Verif.Lemmas.RSBitVector

/-! Arithmetic of ranges of any integer type. -/
namespace Succinct
open Spec (IntType)
open RSBitVector (bind_pure_some)

theorem mapM_cons {α β : Type} (f : α → Option β) (x : α) (v : List α) :
    (x :: v).mapM f = (f x >>= fun y => v.mapM f >>= fun ys => some (y :: ys)) := by
  rw [List.mapM_cons]; rfl

theorem sumsK_some {t : IntType} {k : Nat} {v : List Int} {s : List Word} (h : sumsK t k v = some s) :
    ∀ x ∈ v, ∃ z, plusK t k x = some z ∧ BitVec.ofInt 64 z ∈ s := by
  unfold sumsK at h
  obtain ⟨zs, h1, h2⟩ := Option.map_eq_some_iff.1 h
  subst h2
  clear h
  induction v generalizing zs with
  | nil => simp
  | cons y v ih =>
    rw [mapM_cons] at h1
    simp only [Option.bind_eq_bind, Option.bind_eq_some_iff] at h1
    obtain ⟨z, k1, zs', k2, k3⟩ := h1
    cases k3
    intro x hx
    rcases List.mem_cons.1 hx with rfl | hx
    · exact ⟨z, k1, by simp⟩
    · obtain ⟨z', g1, g2⟩ := ih zs' k2 x hx
      exact ⟨z', g1, by rw [List.map_cons]; exact List.mem_cons_of_mem _ g2⟩

theorem sumsK_eq {t : IntType} {k : Nat} {v : List Int} (h : ∀ x ∈ v, plusK t k x = some (x + k)) :
    sumsK t k v = some (v.map fun x => BitVec.ofInt 64 (x + k)) := by
  have : v.mapM (plusK t k) = some (v.map (· + (k : Int))) := by
    induction v with
    | nil => rfl
    | cons y v ih =>
      rw [mapM_cons, h y (by simp), bind_pure_some, ih (fun x hx => h x (by simp [hx]))]; rfl
  unfold sumsK
  rw [this, Option.map_some, List.map_map]; rfl

theorem ofInt_add_sub (x : Int) (k : Nat) : BitVec.ofInt 64 (x + k) - BitVec.ofNat 64 k = BitVec.ofInt 64 x := by
  rw [BitVec.ofInt_add, BitVec.ofInt_natCast, BitVec.add_sub_cancel]

theorem max_std {t : IntType} (ht : t.Std) : t.promote.max = 2^31 - 1 ∨ t.promote.max = 2^32 - 1 ∨ t.promote.max = 2^63 - 1 ∨ t.promote.max = 2^64 - 1 := by
  obtain ⟨b, s⟩ := t
  unfold IntType.Std at ht
  dsimp only at ht
  unfold IntType.promote IntType.max
  rcases ht with h | h | h | h <;> subst h <;> cases s <;> simp

theorem has_promote {t : IntType} (ht : t.Std) {x : Int} (hx : t.Has x) : x ≤ t.promote.max ∧ -2^63 ≤ x ∧ (t.promote.signed = false → 0 ≤ x) := by
  obtain ⟨b, s⟩ := t
  obtain ⟨h1, h2⟩ := hx
  revert h1 h2
  unfold IntType.Std at ht
  dsimp only at ht
  unfold IntType.promote IntType.max IntType.min
  rcases ht with h | h | h | h <;> subst h <;> cases s <;> simp <;> omega

theorem plusK_storable {t : IntType} {k : Nat} {x : Int} (ht : t.Std) (hx : t.Has x) (hs : x + k ≤ t.promote.max) : plusK t k x = some (x + k) := by
  obtain ⟨h1, h2, h3⟩ := has_promote ht hx
  unfold plusK
  cases hsg : t.promote.signed with
  | true => rw [if_pos rfl, if_pos hs]
  | false =>
    have h3 := h3 hsg
    rw [if_neg (by simp)]
    have : t.promote.max = 2^t.promote.bits - 1 := by
      rw [show t.promote = ⟨t.promote.bits, false⟩ by rw [← hsg]]
      unfold IntType.max
      simp
    rw [Int.emod_eq_of_lt (by omega) (by omega)]

/-- a sum that does not fit is undefined or wraps to a value below `k` -/
theorem plusK_wrap {t : IntType} {k : Nat} {x z : Int} (ht : t.Std) (hx : t.Has x) (hk : k < 2^31) (hs : t.promote.max < x + k) (h : plusK t k x = some z) :
    0 ≤ z ∧ z < k := by
  obtain ⟨h1, h2, h3⟩ := has_promote ht hx
  unfold plusK at h
  cases hsg : t.promote.signed with
  | true =>
    rw [hsg, if_pos rfl, if_neg (by omega)] at h
    cases h
  | false =>
    have h3 := h3 hsg
    rw [hsg, if_neg (by simp)] at h
    have hm : t.promote.max = 2^t.promote.bits - 1 := by
      rw [show t.promote = ⟨t.promote.bits, false⟩ by rw [← hsg]]
      unfold IntType.max
      simp
    have hb : (2:Int)^31 ≤ 2^t.promote.bits := by
      have := max_std ht
      omega
    have h := Option.some.inj h
    have hmod := Int.emod_add_mul_ediv (x + k) (2^t.promote.bits)
    have : (x + k) % 2^t.promote.bits = x + k - 2^t.promote.bits := by
      rw [← Int.sub_emod_right, Int.emod_eq_of_lt (by omega) (by omega)]
    omega

theorem storable_lt {t : IntType} {k : Nat} {x : Int} (ht : t.Std) (hx : t.Has x) (hk : 0 < k) (hk2 : k < 2^31) (hs : t.Storable k x) :
    (BitVec.ofInt 64 x).toNat < 2^64 - k := by
  obtain ⟨h1, h2, _⟩ := has_promote ht hx
  obtain ⟨h3, h4⟩ := hs
  have hm := max_std ht
  rw [BitVec.toNat_ofInt]
  omega

theorem sumsK_storable {t : IntType} {k : Nat} {v : List Int} (ht : t.Std) (hv : ∀ x ∈ v, t.Has x) (hs : ∀ x ∈ v, t.Storable k x) :
    ∃ s, sumsK t k v = some s ∧ s.map (· - BitVec.ofNat 64 k) = v.map (BitVec.ofInt 64) := by
  refine ⟨_, sumsK_eq fun x hx => plusK_storable ht (hv x hx) (hs x hx).1, ?_⟩
  rw [List.map_map]
  exact List.map_congr_left fun x _ => ofInt_add_sub x k

theorem storable_of_sums {t : IntType} {k : Nat} {v : List Int} {s : List Word} (ht : t.Std) (hv : ∀ x ∈ v, t.Has x) (hk : 0 < k) (hk2 : k < 2^31)
    (h : sumsK t k v = some s) (hlt : ∀ y ∈ s.map (· - BitVec.ofNat 64 k), y.toNat < 2^64 - k) : ∀ x ∈ v, t.Storable k x := by
  intro x hx
  obtain ⟨z, h1, h2⟩ := sumsK_some h x hx
  have h3 := hlt _ (List.mem_map_of_mem h2)
  have hz : ¬ (0 ≤ z ∧ z < k) := by
    rintro ⟨g1, g2⟩
    rw [BitVec.toNat_sub, BitVec.toNat_ofNat, BitVec.toNat_ofInt] at h3
    omega
  have hle : x + k ≤ t.promote.max := by
    by_cases hle : x + k ≤ t.promote.max
    · exact hle
    · exact absurd (plusK_wrap ht (hv x hx) hk2 (by omega) h1) hz
  refine ⟨hle, ?_⟩
  have := plusK_storable ht (hv x hx) hle
  rw [this] at h1
  cases h1
  omega

end Succinct
