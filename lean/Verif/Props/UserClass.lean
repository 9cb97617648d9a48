import Verif.Lemmas.UserClass
import Verif.Lemmas.MapperProps

/-! # C116: user-defined classes under freeze and map, and `test_mapper.cpp` -/
namespace Succinct
open Mapper Spec
open RSBitVector (bind_pure_some)

/-- **C116.** Let the `map` member of a class branch only on members that it has passed to the visitor before.  Freezing
an object (whose vectors may themselves be mapped from some image `img0`) and mapping the image onto an object of any
state `y0` makes every member passed to the visitor what it was, in an image followed by anything, leaves the other
members as they were in `y0`, and both calls return the number of bytes, which is eight more than `size_of`. -/
theorem C116_restores (P : Visit) (hP : Causal [] P) (img0 : List Byte) (x : Members)
    (hx : WellTyped (fun m => (x m).look img0) P) (flags : Nat) (mflags : Word) (tail : List Byte) (y0 : Members) :
    ∃ out y, freezeU P img0 x flags = some out ∧ out.written = out.bytes.length ∧
      mapU P (out.bytes ++ tail) mflags y0 = some (y, out.bytes.length) ∧
      sizeP img0 x P 0 = some (out.bytes.length - 8) ∧ out.bytes.length = 8 + bytesOf (fun m => (x m).look img0) P ∧
      (∀ m ∈ passed (fun m => (x m).look img0) P, (y m).look (out.bytes ++ tail) = (x m).look img0) ∧
      (∀ m, m ∉ passed (fun m => (x m).look img0) P → y m = y0 m) := by
  have e1 := freezeP_eq img0 x P hx (Out.put ⟨[], 0⟩ (leEnc 8 flags) 8)
  simp only [Out.put, List.nil_append, Nat.zero_add] at e1
  have hlen := flatU_length _ P hx
  obtain ⟨y, e2, g1, g2⟩ := mapP_eq mflags _ P hx [] hP (leEnc 8 flags) tail
    (leEnc 8 flags ++ flatU (fun m => (x m).look img0) P ++ tail) rfl y0 (by simp)
  rw [leEnc_length] at e2
  have hr := rdBytes_eq (mem := leEnc 8 flags ++ flatU (fun m => (x m).look img0) P ++ tail) (pre := []) (x := leEnc 8 flags)
    (post := flatU (fun m => (x m).look img0) P ++ tail) (by simp)
  rw [leEnc_length, List.length_nil] at hr
  refine ⟨_, y, e1, ?_, ?_, ?_, ?_, fun m hm => g1 m (Or.inr hm), g2⟩
  · simp [leEnc_length]
  · rw [mapU, hr, bind_pure_some, e2]; simp [leEnc_length]
  · rw [sizeP_eq _ _ _ hx, ← hlen]; simp [leEnc_length]
  · simp [leEnc_length, hlen]

/-- a class with a flag and a vector that is passed only if the flag is set: the flag first -/
def optionalVector : Visit :=
  .pod 0 1 (.test (fun u => decide (u 0 = some (.pod [1]))) (.vec 1 2 .stop) .stop)

/-- the same with the flag passed last -/
def flagLast : Visit :=
  .test (fun u => decide (u 0 = some (.pod [1]))) (.vec 1 2 (.pod 0 1 .stop)) (.pod 0 1 .stop)

/-- an object with the flag set and three elements -/
def withVector : Members := fun m => if m = 0 then .pod [1] else .own [[1, 2], [3, 4], [5, 6]]
/-- an object with the flag not set -/
def withoutVector : Members := fun m => if m = 0 then .pod [0] else .own []

/-- the hypotheses of `C116_restores` hold for the class with the flag first -/
example : Causal [] optionalVector ∧ WellTyped (fun m => (withVector m).look []) optionalVector ∧
    passed (fun m => (withVector m).look []) optionalVector = [0, 1] ∧
    passed (fun m => (withoutVector m).look []) optionalVector = [0] := by
  refine ⟨⟨fun u v h => ?_, trivial, trivial⟩, ⟨⟨[1], rfl, rfl⟩, ?_⟩, rfl, rfl⟩
  · dsimp only; rw [h 0 (by simp)]
  · rw [WellTyped, if_pos (by decide)]
    exact ⟨⟨_, rfl, by decide, by decide, by decide⟩, trivial⟩

/-- **C116**: the condition is needed.  With the flag passed last an object is not restored when mapped onto one of
another state: the eight bytes that hold the number of elements are taken for the flag and what follows. -/
theorem C116_flag_last_false :
    ∃ out y n, freezeU flagLast [] withVector 0 = some out ∧ out.written = 23 ∧
      mapU flagLast out.bytes 0 withoutVector = some (y, n) ∧ n = 9 ∧
      (y 0).look out.bytes = some (.pod [3]) ∧ (y 1).look out.bytes = some (.vec []) ∧
      ∃ y' n', mapU flagLast out.bytes 0 withVector = some (y', n') ∧ n' = 23 ∧
        (y' 0).look out.bytes = some (.pod [1]) ∧ (y' 1).look out.bytes = some (.vec [[1, 2], [3, 4], [5, 6]]) := by
  refine ⟨⟨leEnc 8 0 ++ leEnc 8 3 ++ [1, 2, 3, 4, 5, 6] ++ [1], 23⟩, _, _, rfl, rfl, rfl, rfl, ?_, ?_, _, _, rfl, rfl, ?_, ?_⟩ <;> decide +kernel

/-! ## test_mapper.cpp -/

theorem complexStruct_lawful : Codec.complexStruct.Lawful :=
  Codec.iso_lawful (Codec.seq_lawful (Codec.u64_lawful _)
    (Codec.vec_lawful _ 4 (by decide) _ _ _ (fun x _ => leEnc_length 4 x) (fun x h => by rw [leDec_leEnc, Nat.mod_eq_of_lt (by simpa using h)]))) (fun _ => rfl)

/-- **C116**: `complex_struct` of the tests is restored, the counts agree, and its size tree has the one node `m_b`. -/
theorem C116_complex_struct : Restores Codec.complexStruct ∧ Accounts Codec.complexStruct ∧ DetectsTruncation Codec.complexStruct ∧
    TreeSpec Codec.complexStruct ["m_b"] :=
  ⟨complexStruct_lawful.restores, complexStruct_lawful.accounts, complexStruct_lawful.truncation, complexStruct_lawful.tree _ rfl⟩

/-- **C116**, `complex_struct_map`: passes whatever `init` stores, exactly if the size expected is 16 bytes and four for each
element (24 for the two elements of the test). -/
theorem C116_test_complex (s : ComplexStruct) (ha : s.a < 2^64) (hl : s.b.length < 2^60) (hb : ∀ x ∈ s.b, x < 2^32) (size : Nat) :
    complexStructMap s size = some (decide (size = 16 + 4 * s.b.length)) := by
  have hf : Codec.complexStruct.fits s := ⟨ha, hl, hb⟩
  obtain ⟨out, m, n, y, e1, e2, e3, e4⟩ := complexStruct_lawful.restores s hf 0 0 "<TOP>" []
  rw [List.append_nil] at e2 e3
  have hs : sizeBytes (top Codec.complexStruct "" s) = 16 + 4 * s.b.length := by
    show 0 + (leEnc 8 s.a).length + 8 + (s.b.map (leEnc 4)).length * 4 % 2^64 = _
    rw [leEnc_length, List.length_map, Nat.mod_eq_of_lt (by omega)]; omega
  rw [complexStructMap, e1, bind_pure_some, e2, bind_pure_some]
  dsimp only
  rw [e3, bind_pure_some, e4, bind_pure_some]
  dsimp only
  rw [hs]; simp

example : complexStructMap ⟨42, [1, 2]⟩ 24 = some true := by decide +kernel

theorem vecInt_lawful : Codec.vecInt.Lawful := Codec.vi32_lawful _

/-- **C116**, `basic_map`: passes for every vector of `int`s. -/
theorem C116_test_basic (nums : List Int) (hl : nums.length < 2^60) (hn : ∀ x ∈ nums, -2^31 ≤ x ∧ x < 2^31) :
    basicMap nums = some true := by
  have hf : Codec.vecInt.fits nums := ⟨hl, hn⟩
  have hw := vecInt_lawful.wf nums .done hf trivial
  have hlay := vecInt_lawful.layEq nums .done hf
  have hg := vecInt_lawful.getPut nums .done hf
  have e1 := freezeV_eq _ hw (Out.put ⟨[], 0⟩ (leEnc 8 0) 8)
  have e2 := mapV_eq 0 _ hw (leEnc 8 0) []
  have e3 := load_place _ hw (leEnc 8 0) []
  have hr := rdBytes_eq (mem := leEnc 8 0 ++ (Codec.vecInt.put nums .done).flat) (pre := []) (x := leEnc 8 0)
    (post := (Codec.vecInt.put nums .done).flat) (by simp)
  simp only [Out.put, List.nil_append, Nat.zero_add] at e1
  rw [List.append_nil, leEnc_length] at e2 e3
  rw [leEnc_length, List.length_nil] at hr
  have em : map (Codec.vecInt.lay .done) (leEnc 8 0 ++ (Codec.vecInt.put nums .done).flat) 0 =
      some ((Codec.vecInt.put nums .done).place 8, 8 + (Codec.vecInt.put nums .done).flat.length) := by
    rw [map, hr, bind_pure_some, ← e2, hlay]; rfl
  have ef : freeze (Codec.vecInt.put nums .done) 0 = _ := e1
  rw [basicMap, ef, bind_pure_some]
  dsimp only
  rw [em, bind_pure_some]
  dsimp only
  rw [e3, bind_pure_some, hg, bind_pure_some]
  simp

example : basicMap [1, 2, 3, 4] = some true := by decide +kernel

end Succinct
