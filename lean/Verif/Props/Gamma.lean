import Verif.Lemmas.Gamma

/-! # C28-C30: gamma vectors and their enumerators -/
namespace Succinct
open Spec

/-- **C28.** `gamma_vector` returns the integers it was built from, each below `2^64 - 1`. -/
theorem C28_gamma_vector (v : List Word) (hv : ∀ x ∈ v, x ≠ BitVec.allOnes 64) :
    ∃ g, GammaVector.build v = some g ∧ g.size = some v.length ∧
      ∀ ov i, i < v.length → GammaVector.get ov g i = v[i]? := by
  obtain ⟨g, e, h⟩ := GammaVector.build_good v hv
  exact ⟨g, e, h.size_eq, fun ov i hi => by rw [GammaVector.get_eq ov h i hi, List.getElem?_eq_getElem hi]⟩

example : (GammaVector.build [5, 0, 1000000, 0xfffffffffffffffe, 1]).bind (fun g => GammaVector.get (fun _ _ => 0) g 3) =
    some 0xfffffffffffffffe := by decide +kernel

/-- the excluded value is rejected by an assertion -/
theorem C28_max_rejected : GammaVector.build [1, BitVec.allOnes 64] = none := by decide +kernel

/-- **C29.** `gamma_bit_vector` returns the integers it was built from, each below `2^64 - 2`. -/
theorem C29_gamma_bit_vector (v : List Word) (hv : ∀ x ∈ v, x.toNat < 2^64 - 2) :
    ∃ g, GammaBitVector.build v = some g ∧ g.size = some v.length ∧
      ∀ ov i, i < v.length → GammaBitVector.get ov g i = v[i]? := by
  obtain ⟨g, e, h, hp⟩ := GammaBitVector.build_good v hv
  exact ⟨g, e, h.size_eq, fun ov i hi => by rw [GammaBitVector.get_eq ov h hp i hi, List.getElem?_eq_getElem hi]⟩

example : (GammaBitVector.build [5, 0, 1000000, 0xfffffffffffffffd, 1]).bind (fun g => GammaBitVector.get (fun _ _ => 0) g 3) =
    some 0xfffffffffffffffd := by decide +kernel

/-- the excluded values are rejected by assertions -/
theorem C29_max_rejected : GammaBitVector.build [1, BitVec.allOnes 64] = none ∧
    GammaBitVector.build [1, BitVec.allOnes 64 - 1] = none := by decide +kernel

/-- **C30** (`gamma_vector`): the forward enumerator started at any index returns the values from there. -/
theorem C30_gamma_vector_enum (v : List Word) (hv : ∀ x ∈ v, x ≠ BitVec.allOnes 64) :
    ∃ g, GammaVector.build v = some g ∧ ∀ i k, i < v.length → i + k ≤ v.length →
      ∃ e, GammaVector.enumNew g i = some e ∧ GammaVector.enumRun g k e = some ((v.drop i).take k) := by
  obtain ⟨g, e, h⟩ := GammaVector.build_good v hv
  refine ⟨g, e, fun i k hi hk => ?_⟩
  obtain ⟨en, e1, g1⟩ := GammaVector.enumNew_ok h i hi
  exact ⟨en, e1, GammaVector.enumRun_ok h k i hk en g1⟩

example : (GammaVector.build [5, 0, 1000000, 0xfffffffffffffffe, 1]).bind
    (fun g => (GammaVector.enumNew g 1).bind (GammaVector.enumRun g 4)) = some [0, 1000000, 0xfffffffffffffffe, 1] := by decide +kernel

/-- What a history of `next` (`none`) and `skip(k)` (`some k`) calls returns on a list read from index `i`:
the results of the `next` calls; `none` if the history runs past the end. -/
def fwdSpec (v : List Word) : List (Option Nat) → Nat → Option (List Word)
  | [], _ => some []
  | none :: ops, i => do
    let x ← v[i]?
    let xs ← fwdSpec v ops (i + 1)
    pure (x :: xs)
  | some k :: ops, i => if i + k ≤ v.length then fwdSpec v ops (i + k) else none

/-- **C30** (`gamma_bit_vector`): the same, for every history of `next` and `skip` calls. -/
theorem C30_gamma_bit_vector_enum (v : List Word) (hv : ∀ x ∈ v, x.toNat < 2^64 - 2) :
    ∃ g, GammaBitVector.build v = some g ∧ ∀ ops i r, i < v.length → fwdSpec v ops i = some r →
      ∃ e, GammaBitVector.enumNew g i = some e ∧ GammaBitVector.enumRun g ops e = some r := by
  obtain ⟨g, e, h, hp⟩ := GammaBitVector.build_good v hv
  refine ⟨g, e, fun ops i r hi hs => ?_⟩
  obtain ⟨en, e1, g1⟩ := GammaBitVector.enumNew_ok h hp i hi
  refine ⟨en, e1, ?_⟩
  clear e1 hi
  induction ops generalizing i en r with
  | nil => exact hs
  | cons op ops ih =>
    cases op with
    | none =>
      unfold fwdSpec at hs
      by_cases hi : i < v.length
      · rw [List.getElem?_eq_getElem hi, bind_pure_some] at hs
        cases hr : fwdSpec v ops (i+1) with
        | none => rw [hr] at hs; simp at hs
        | some xs =>
          rw [hr, bind_pure_some] at hs
          obtain ⟨e2, e3, g3⟩ := GammaBitVector.enumNext_ok h hp i hi en g1
          unfold GammaBitVector.enumRun
          rw [e3, bind_pure_some]
          simp only []
          rw [ih (i+1) xs hr e2 g3, bind_pure_some, ← hs]
      · rw [List.getElem?_eq_none (by omega)] at hs; simp at hs
    | some k =>
      unfold fwdSpec at hs
      by_cases hi : i + k ≤ v.length
      · rw [if_pos hi] at hs
        obtain ⟨e2, e3, g3⟩ := GammaBitVector.enumSkip_ok h hp k i hi en g1
        unfold GammaBitVector.enumRun
        rw [e3, bind_pure_some, ih (i+k) r hs e2 g3]
      · rw [if_neg hi] at hs; simp at hs

example : (GammaBitVector.build [5, 0, 1000000, 0xfffffffffffffffd, 1]).bind
    (fun g => (GammaBitVector.enumNew g 1).bind (GammaBitVector.enumRun g [none, some 2, none])) = some [0, 1] ∧
    fwdSpec [5, 0, 1000000, 0xfffffffffffffffd, 1] [none, some 2, none] 1 = some [0, 1] := by decide +kernel

/-- **C30** (generic): over a container whose `operator[]` returns `v[i]`, the generic `forward_enumerator`
returns the values from its start index. -/
theorem C30_generic {α : Type} (v : List α) (get : Nat → Option α) (hg : ∀ i, i < v.length → get i = v[i]?) (i k : Nat)
    (hk : i + k ≤ v.length) : forwardRun get k i = some ((v.drop i).take k) := by
  induction k generalizing i with
  | zero => simp [forwardRun]
  | succ k ih =>
    unfold forwardRun forwardNext
    rw [hg i (by omega), List.getElem?_eq_getElem (show i < v.length by omega), bind_pure_some]
    simp only []
    rw [List.drop_eq_getElem_cons (show i < v.length by omega), List.take_succ_cons]
    show (some (v[i], i+1) >>= _) = _
    rw [bind_pure_some]
    simp only []
    rw [ih (i+1) (by omega), bind_pure_some]; rfl

example : forwardRun (fun i => [10, 20, 30, 40][i]?) 2 1 = some [20, 30] := by decide +kernel

end Succinct
