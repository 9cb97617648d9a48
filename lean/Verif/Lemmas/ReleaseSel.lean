import Verif.Lemmas.ReleaseSeq

/-! `elias_fano::select_enumerator` and the Elias-Fano lists without assertions. -/
namespace Succinct
namespace Release
open Broadword Spec
open Machine (W at_)
open RSBitVector (bind_pure_some)

theorem build_d1 {b : EFBuilder} {wr : Bool} {ef : EliasFano} (h : EliasFano.build b wr = some ef) : Darray.build false ef.high = some ef.d1 := by
  unfold EliasFano.build at h
  simp only [Option.bind_eq_bind, Option.bind_eq_some_iff] at h
  obtain ⟨high, _, d1, h2, h⟩ := h
  cases wr
  · simp only [Bool.false_eq_true, if_false, Option.bind_eq_bind, Option.bind_eq_some_iff] at h
    obtain ⟨_, _, _, _, h⟩ := h
    obtain rfl := Option.some.inj h
    exact h2
  · simp only [if_true, Option.bind_eq_bind, Option.bind_eq_some_iff] at h
    obtain ⟨_, _, _, _, h⟩ := h
    obtain rfl := Option.some.inj h
    exact h2

theorem ofSeq_d1 {n : Word} {m : Nat} {xs : List Word} {wr : Bool} {ef : EliasFano} (h : EliasFano.ofSeq n m xs wr = some ef) :
    Darray.build false ef.high = some ef.d1 := by
  unfold EliasFano.ofSeq at h
  simp only [Option.bind_eq_bind, Option.bind_eq_some_iff] at h
  obtain ⟨_, _, _, _, h⟩ := h
  exact build_d1 h

section
variable {ef : EliasFano} {n : Word} {xs : List Word} {hb : List Bool} (s : Machine.EliasFano.Small ef) (g : EliasFano.Good ef n xs hb)
include g

/-- behind the last value the high part holds zeros -/
theorem ef_tail (k : Nat) (hk : k < xs.length) (hl : k + 1 = xs.length) (q : Nat) (hq : xs[k].toNat / 2^ef.l + k < q) : bitFn hb q = false := by
  obtain ⟨a1, a2, a3⟩ := EliasFano.hi_one g k hk
  cases hf : bitFn hb q with
  | false => rfl
  | true =>
    exfalso
    have h1 := cnt_lt_of_true hq a1
    have h2 := cnt_lt_of_true (bitFn_lt _ _ hf) hf
    rw [g.high.all, List.length_map] at h2
    omega

/-- the state before value `i`, the end included -/
def SelOk (ef : EliasFano) (xs : List Word) (hb : List Bool) (e : EliasFano.SelEnum) (i : Nat) : Prop :=
  EliasFano.SelEnum.Ok ef xs hb e i ∧ e.chunksAvail < 2^64 ∧
    (i = xs.length → ∃ u c, e.high = some u ∧ UEnum.Good hb u c ∧ c ≤ 2^63 ∧ ∀ q, c ≤ q → bitFn hb q = false)

include s

theorem selNext_eq (i : Nat) (e : EliasFano.SelEnum) (he : SelOk ef xs hb e i) :
    (∀ h : i < xs.length, ∃ e', selNext (Machine.EliasFano.enc ef) (Machine.EliasFano.SelEnum.enc e) = some (xs[i], Machine.EliasFano.SelEnum.enc e') ∧
      SelOk ef xs hb e' (i + 1)) ∧
    (i = xs.length → selNext (Machine.EliasFano.enc ef) (Machine.EliasFano.SelEnum.enc e) = none) := by
  obtain ⟨o, a, t⟩ := he
  have hh := Machine.EliasFano.hb_le s g
  constructor
  · intro hi
    obtain ⟨e', e1, g1⟩ := EliasFano.SelEnum.next_ok g e i hi o
    obtain ⟨m1, m2⟩ := Machine.EliasFano.SelEnum.next_le s e a
    refine ⟨e', selNext_below _ _ _ (m1 _ e1), g1, m2 _ e1, fun hn => ?_⟩
    obtain ⟨u, c, u1, u2, u3⟩ := o.high hi
    obtain ⟨u', v1, v2⟩ := UEnum.next_good g.highRep.repr u c _ u2 (u3 hi)
    unfold EliasFano.SelEnum.next at e1
    simp only [Option.bind_eq_bind, Option.bind_eq_some_iff] at e1
    obtain ⟨⟨buf, avail⟩, _, u4, k1, ⟨high, u5⟩, k2, p, _, _, _, m, _, d, _, x, _, b, _, k3⟩ := e1
    rw [u1] at k1
    obtain rfl := Option.some.inj k1
    rw [v1] at k2
    obtain ⟨_, rfl⟩ := Prod.mk.inj (Option.some.inj k2)
    obtain ⟨_, rfl⟩ := Prod.mk.inj (Option.some.inj k3)
    obtain ⟨_, _, a3⟩ := EliasFano.hi_one g i hi
    exact ⟨u', _, rfl, v2, by omega, fun q hq => ef_tail g i hi hn q (by omega)⟩
  · intro hn
    obtain ⟨u, c, u1, u2, u3, u4⟩ := t hn
    unfold selNext
    have e1 : (Machine.EliasFano.SelEnum.enc e).high = some (Machine.UEnum.enc u) := by
      show e.high.map _ = _
      rw [u1]; rfl
    rw [e1]
    cases selRefill (Machine.EliasFano.enc ef) (Machine.EliasFano.SelEnum.enc e) with
    | none => rfl
    | some r =>
      rw [bind_pure_some]
      dsimp only
      rw [bind_pure_some, show (Machine.EliasFano.enc ef).high.bits = ef.high.bits from rfl, next_out g.highRep.repr hh u c u2 u3 u4]; rfl

theorem selRun_eq : ∀ (k i : Nat) (e : EliasFano.SelEnum), i ≤ xs.length → SelOk ef xs hb e i →
    selRun (Machine.EliasFano.enc ef) k (Machine.EliasFano.SelEnum.enc e) = if i + k ≤ xs.length then some ((xs.drop i).take k) else none := by
  intro k
  induction k with
  | zero => intro i e hi he; rw [if_pos (by omega)]; simp [selRun]
  | succ k ih =>
    intro i e hi he
    obtain ⟨n1, n2⟩ := selNext_eq s g i e he
    unfold selRun
    by_cases hi' : i < xs.length
    · obtain ⟨e', e1, e2⟩ := n1 hi'
      rw [e1, bind_pure_some]
      dsimp only
      rw [ih (i+1) e' (by omega) e2]
      by_cases hk : i + (k + 1) ≤ xs.length
      · rw [if_pos hk, if_pos (by omega), bind_pure_some, List.drop_eq_getElem_cons hi', List.take_succ_cons]; rfl
      · rw [if_neg hk, if_neg (by omega)]; rfl
    · rw [n2 (by omega), if_neg (by omega)]; rfl

theorem selNew_eq (b1 : Darray.build false ef.high = some ef.d1) (i : Word) (k : Nat) :
    (i.toNat < xs.length → (selNew (Machine.EliasFano.enc ef) i).bind (selRun (Machine.EliasFano.enc ef) k) =
      if i.toNat + k ≤ xs.length then some ((xs.drop i.toNat).take k) else none) ∧
    (xs.length ≤ i.toNat → (selNew (Machine.EliasFano.enc ef) i).bind (selRun (Machine.EliasFano.enc ef) (k + 1)) = none) := by
  have hx := Machine.EliasFano.xs_le s g
  constructor
  · intro hi
    obtain ⟨e, e1, o⟩ := EliasFano.SelEnum.new_ok g i.toNat hi
    obtain ⟨k1, k2⟩ := Machine.EliasFano.SelEnum.new_le s i.toNat
    have m1 := k1 _ e1
    rw [Machine.W_of] at m1
    rw [selNew_below _ _ _ m1, Option.bind_some]
    exact selRun_eq s g k i.toNat e (by omega) ⟨o, k2 _ e1, fun h => by omega⟩
  · intro hi
    unfold selNew
    cases Machine.EFBuilder.lowMask (Machine.EliasFano.enc ef).l with
    | none => rfl
    | some m =>
      rw [bind_pure_some]
      dsimp only
      by_cases h0 : (Machine.EliasFano.enc ef).numOnes = 0
      · rw [if_pos h0]
        show selRun _ (k+1) _ = none
        unfold selRun selNext
        cases selRefill (Machine.EliasFano.enc ef) ⟨i, none, 0, if (Machine.EliasFano.enc ef).l ≠ 0 then 0 else (Machine.EliasFano.enc ef).numOnes⟩ <;> rfl
      · rw [if_neg h0, ef_d1_none s g b1 i hi]; rfl

end

/-- successive reads of a list that has values exactly at its indices -/
theorem fwdRun_eq (get : Word → Option Word) (v : List Word) (hv : v.length < 2^64) (h : ∀ i, get i = v[i.toNat]?) : ∀ (k : Nat) (i : Word),
    i.toNat ≤ v.length → fwdRun get k i = if i.toNat + k ≤ v.length then some ((v.drop i.toNat).take k) else none := by
  intro k
  induction k with
  | zero => intro i hi; rw [if_pos (by omega)]; simp [fwdRun]
  | succ k ih =>
    intro i hi
    unfold fwdRun
    rw [h]
    by_cases hi' : i.toNat < v.length
    · have e1 : (i + 1).toNat = i.toNat + 1 := Machine.toNat_add_lt i 1 (by show i.toNat + 1 < _; omega)
      rw [List.getElem?_eq_getElem hi', bind_pure_some, ih _ (by omega), e1]
      by_cases hk : i.toNat + (k + 1) ≤ v.length
      · rw [if_pos hk, if_pos (by omega), bind_pure_some, List.drop_eq_getElem_cons hi', List.take_succ_cons]; rfl
      · rw [if_neg hk, if_neg (by omega)]; rfl
    · rw [List.getElem?_eq_none (by omega), if_neg (by omega)]; rfl

end Release
end Succinct
