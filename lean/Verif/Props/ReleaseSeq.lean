import Verif.Lemmas.ReleaseGamma
import Verif.Lemmas.ReleaseNibble
import Verif.Lemmas.ReleaseSel
import Verif.Props.MachineEnum
import Mathlib.Tactic.FinCases

/-!
# C104: integer sequences and their enumerators when assertions are compiled out

`Verif/Model/ReleaseSeq.lean` holds the code of a build with `NDEBUG`; no answer is the outcome of undefined
behaviour.  An index outside an `elias_fano_list`, an `elias_fano_compressed_list`, a `gamma_vector` or a `gamma_bit_vector` never
has an answer, and an enumerator never returns more values than remain.  A `nibble_vector` does answer one position too many when
its size is odd, and the constructor accepts values that do not fit, of which it stores parts.
-/
namespace Succinct
open Spec
open Machine (W)
open RSBitVector (bind_pure_some)

/-- **C104**: an answer of the checked code is the answer of the code without assertions, whatever the objects hold. -/
theorem C104_same_answers :
    (∀ (ov : Word → Nat → Word) (i r : Word),
      (∀ v : Machine.EliasFano, Machine.EFList.get ov v i = some r → Release.eflGet ov v i = some r) ∧
      (∀ v : Machine.EFCompressedList, v.get ov i = some r → Release.efclGet ov v i = some r) ∧
      (∀ v : Machine.GammaVec, Machine.GammaVector.get ov v i = some r → Release.gvGet ov v i = some r) ∧
      (∀ v : Machine.GammaVec, Machine.GammaBitVector.get ov v i = some r → Release.gbvGet ov v i = some r)) ∧
    (∀ (v : Machine.GammaVec) (i : Word) (e : Machine.GammaEnum),
      (∀ r, Machine.GammaVector.enumNew v i = some r → Release.gvEnumNew v i = some r) ∧
      (∀ r, Machine.GammaVector.enumNext v e = some r → Release.gvEnumNext v e = some r) ∧
      (∀ r, Machine.GammaBitVector.enumNew v i = some r → Release.gbvEnumNew v i = some r) ∧
      (∀ r, Machine.GammaBitVector.enumNext v e = some r → Release.gbvEnumNext v e = some r)) ∧
    (∀ (ef : Machine.EliasFano) (i : Word) (e : Machine.EliasFano.SelEnum),
      (∀ r, Machine.EliasFano.SelEnum.new ef i = some r → Release.selNew ef i = some r) ∧
      (∀ r, Machine.EliasFano.SelEnum.next ef e = some r → Release.selNext ef e = some r)) ∧
    (∀ (v : Machine.NibbleVector) (i : Word) (r : BitVec 8), v.get i = some r → Release.nvGet v i = some r) :=
  ⟨fun ov i r => ⟨fun v => Release.efDelta_below ov v i r, fun v => Release.efclGet_below ov v i r, fun v => Release.gvGet_below ov v i r,
      fun v => Release.gbvGet_below ov v i r⟩,
    fun v i e => ⟨Release.gvEnumNew_below v i, Release.gvEnumNext_below v e, Release.gbvEnumNew_below v i, Release.gbvEnumNext_below v e⟩,
    fun ef i e => ⟨Release.selNew_below ef i, Release.selNext_below ef e⟩,
    fun _ _ _ => Release.Below.drop (fun _ => Release.Below.rfl) _⟩

/-- **C104**, `elias_fano_list`: an index has the value at that position, and no answer if there is none; `k` calls of `next`
return `k` values, and have no answer if fewer remain. -/
theorem C104_list (v : List Word) (hs : (v.map BitVec.toNat).sum < 2^64 - 1) (hl : v.length ≤ 2^61) :
    ∃ t, Machine.EFList.build v = some t ∧ ∀ ov, (∀ i : Word, Release.eflGet ov t i = v[i.toNat]?) ∧
      ∀ (i : Word) (k : Nat), i.toNat ≤ v.length → Release.fwdRun (Release.eflGet ov t) k i =
        if i.toNat + k ≤ v.length then some ((v.drop i.toNat).take k) else none := by
  obtain ⟨t, hb, e, g, m, s⟩ := Machine.EFList.build_eq v hs hl
  obtain ⟨t', m', _, _, c⟩ := C76_list v hs hl
  obtain rfl := Option.some.inj (m.symm.trans m')
  have b1 : Darray.build false t.ef.high = some t.ef.d1 := by
    unfold EFList.build at e
    simp only [Option.bind_eq_bind, Option.bind_eq_some_iff] at e
    obtain ⟨_, _, _, _, ef, e, e'⟩ := e
    obtain rfl := Option.some.inj e'
    exact Release.build_d1 e
  have key : ∀ ov (i : Word), Release.eflGet ov (Machine.EliasFano.enc t.ef) i = v[i.toNat]? := by
    intro ov i
    by_cases hi : i.toNat < v.length
    · have := c ov i
      rw [List.getElem?_eq_getElem hi] at this ⊢
      exact Release.efDelta_below ov _ i _ this
    · rw [List.getElem?_eq_none (by omega)]
      exact Release.efDelta_none ov s g b1 i (by rw [EFList.psums_length]; omega)
  exact ⟨_, m, fun ov => ⟨key ov, fun i k hi => Release.fwdRun_eq _ v (by omega) (key ov) k i hi⟩⟩

example : (Machine.EFList.build [5, 0, 1000000, 7]).map (fun t => (Release.eflGet (fun _ _ => 0) t 2, Release.eflGet (fun _ _ => 0) t 4,
    Release.fwdRun (Release.eflGet (fun _ _ => 0) t) 3 1, Release.fwdRun (Release.eflGet (fun _ _ => 0) t) 4 1)) =
    some (some 1000000, none, some [0, 1000000, 7], none) := by decide +kernel

/-- **C104**, `elias_fano_compressed_list`: the same. -/
theorem C104_compressed_list (v : List Word) (hv : ∀ x ∈ v, x ≠ BitVec.allOnes 64) (hl : v.length < 2^57) :
    ∃ t, Machine.EFCompressedList.build v = some t ∧ ∀ ov, (∀ i : Word, Release.efclGet ov t i = v[i.toNat]?) ∧
      ∀ (i : Word) (k : Nat), i.toNat ≤ v.length → Release.fwdRun (Release.efclGet ov t) k i =
        if i.toNat + k ≤ v.length then some ((v.drop i.toNat).take k) else none := by
  obtain ⟨t, hb, n, e, g, r, m, s, f⟩ := Machine.EFCompressedList.build_eq v hv hl
  obtain ⟨t', m', _, c⟩ := C76_compressed_list v hv hl
  obtain rfl := Option.some.inj (m.symm.trans m')
  have hlen : (0#64 :: EFCompressedList.offs 0 v).length = v.length + 1 := by rw [List.length_cons, EFCompressedList.offs_length]
  have b1 : Darray.build false t.ef.high = some t.ef.d1 := by
    unfold EFCompressedList.build at e
    simp only [Option.bind_eq_bind, Option.bind_eq_some_iff] at e
    obtain ⟨_, _, _, _, _, _, _, _, _, _, ef, e, _, _, e'⟩ := e
    obtain rfl := Option.some.inj e'
    exact Release.build_d1 e
  have key : ∀ ov (i : Word), Release.efclGet ov (Machine.EFCompressedList.enc t) i = v[i.toNat]? := by
    intro ov i
    by_cases hi : i.toNat < v.length
    · have := c ov i
      rw [List.getElem?_eq_getElem hi] at this ⊢
      exact Release.efclGet_below ov _ i _ this
    · rw [List.getElem?_eq_none (by omega)]
      unfold Release.efclGet
      rw [show (Machine.EFCompressedList.enc t).ef = Machine.EliasFano.enc t.ef from rfl,
        Release.efSelectRange_none ov s g b1 i (by rw [hlen]; omega)]
      rfl
  exact ⟨_, m, fun ov => ⟨key ov, fun i k hi => Release.fwdRun_eq _ v (by omega) (key ov) k i hi⟩⟩

example : (Machine.EFCompressedList.build [5, 0, 1000000, 7]).map (fun t => (Release.efclGet (fun _ _ => 0) t 2, Release.efclGet (fun _ _ => 0) t 4,
    Release.fwdRun (Release.efclGet (fun _ _ => 0) t) 3 1, Release.fwdRun (Release.efclGet (fun _ _ => 0) t) 4 1)) =
    some (some 1000000, none, some [0, 1000000, 7], none) := by decide +kernel

/-- **C104**, `gamma_vector`: indexing, and an enumerator created at any position, the ones behind the end included: it never
returns more values than remain. -/
theorem C104_gamma_vector (v : List Word) (hv : ∀ x ∈ v, x ≠ BitVec.allOnes 64) (hl : v.length ≤ 2^56) :
    ∃ g, Machine.GammaVector.build v = some g ∧ (∀ ov (i : Word), Release.gvGet ov g i = v[i.toNat]?) ∧
      ∀ (i : Word) (k : Nat), (Release.gvEnumNew g i).bind (Release.gvEnumRun g k) =
        if min i.toNat v.length + k ≤ v.length then some ((v.drop i.toNat).take k) else none := by
  obtain ⟨g, e, h, m, s⟩ := Machine.GammaVector.build_eq v hv hl
  have hb := Release.gv_high v h.nz g e
  have hul : (unary (0 :: v.map (glen 1))).length ≤ 2^63 := by
    have := Machine.GammaVec.unary_le (0 :: v.map (glen 1)) (by
      intro k hk
      rcases List.mem_cons.1 hk with a | a
      · omega
      · obtain ⟨x, x1, rfl⟩ := List.mem_map.1 a
        have := (glen_spec 1 x (h.nz x x1)).2.1; omega)
    rw [List.length_cons, List.length_map] at this
    omega
  refine ⟨_, m, fun ov i => Release.gvGet_eq ov h s hul hb i, fun i k => ?_⟩
  by_cases hi : i.toNat < v.length
  · obtain ⟨en, e1, g1⟩ := GammaVector.enumNew_ok h i.toNat hi
    have m1 := (Machine.GammaVector.enumNew_le s i.toNat i.isLt).1 _ e1
    rw [Machine.W_of] at m1
    rw [Release.gvEnumNew_below _ _ _ m1, Option.bind_some, Release.gvRun_eq h s hul k i.toNat en (by omega) g1, Nat.min_eq_left (by omega)]
  · have hc : ¬ i < (Machine.GammaVec.enc g).size := by
      rw [Machine.GammaVector.size_W _ h.size_eq, BitVec.lt_def, Machine.W_toNat _ (by omega)]; exact hi
    unfold Release.gvEnumNew
    rw [if_neg hc, Nat.min_eq_right (by omega), List.drop_eq_nil_of_le (by omega), List.take_nil]
    show Release.gvEnumRun _ k _ = _
    cases k with
    | zero => rw [if_pos (by omega)]; rfl
    | succ k => rw [if_neg (by omega)]; rfl

example : (Machine.GammaVector.build [5, 0, 1000000, 7]).map (fun t => (Release.gvGet (fun _ _ => 0) t 2, Release.gvGet (fun _ _ => 0) t 4,
    (Release.gvEnumNew t 1).bind (Release.gvEnumRun t 3), (Release.gvEnumNew t 1).bind (Release.gvEnumRun t 4))) =
    some (some 1000000, none, some [0, 1000000, 7], none) := by decide +kernel

/-- **C104**, `gamma_bit_vector`: the same, for every history of `next` and `skip` calls. -/
theorem C104_gamma_bit_vector (v : List Word) (hv : ∀ x ∈ v, x.toNat < 2^64 - 2) (hl : v.length ≤ 2^56) :
    ∃ g, Machine.GammaBitVector.build v = some g ∧ (∀ ov (i : Word), Release.gbvGet ov g i = v[i.toNat]?) ∧
      ∀ (i : Word) (ops : List (Option Word)), (Release.gbvEnumNew g i).bind (Release.gbvEnumRun g ops) =
        fwdSpec v (ops.map (Option.map BitVec.toNat)) (min i.toNat v.length) := by
  obtain ⟨g, e, h, hp, m, s⟩ := Machine.GammaBitVector.build_eq v hv hl
  have hb := Release.gbv_high v (by
    intro x hm
    have := hv x hm
    rw [BitVec.toNat_add, show (2 : Word).toNat = 2 from rfl, Nat.mod_eq_of_lt (by omega)]; omega) g e
  have hul : (unary (0 :: v.map GammaBitVector.hlen)).length ≤ 2^63 := by
    have := Machine.GammaVec.unary_le (0 :: v.map GammaBitVector.hlen) (by
      intro k hk
      rcases List.mem_cons.1 hk with a | a
      · omega
      · obtain ⟨x, x1, rfl⟩ := List.mem_map.1 a
        have := (glen_spec 2 x (h.nz x x1)).2.1
        unfold GammaBitVector.hlen; omega)
    rw [List.length_cons, List.length_map] at this
    omega
  refine ⟨_, m, fun ov i => Release.gbvGet_eq ov h hp s hul hb i, fun i ops => ?_⟩
  by_cases hi : i.toNat < v.length
  · obtain ⟨en, e1, g1⟩ := GammaBitVector.enumNew_ok h hp i.toNat hi
    have m1 := (Machine.GammaBitVector.enumNew_le s i.toNat i.isLt).1 _ e1
    rw [Machine.W_of] at m1
    rw [Release.gbvEnumNew_below _ _ _ m1, Option.bind_some, Release.gbvRun_eq h hp s hul ops i.toNat en (by omega) g1, Nat.min_eq_left (by omega)]
  · have hc : ¬ i < (Machine.GammaVec.enc g).size := by
      rw [Machine.GammaVector.size_W _ h.size_eq, BitVec.lt_def, Machine.W_toNat _ (by omega)]; exact hi
    unfold Release.gbvEnumNew
    rw [if_neg hc, Nat.min_eq_right (by omega)]
    exact Release.gbvRun_dead _ v ops _ rfl

example : (Machine.GammaBitVector.build [5, 0, 1000000, 7]).map (fun t => (Release.gbvGet (fun _ _ => 0) t 2, Release.gbvGet (fun _ _ => 0) t 4,
    (Release.gbvEnumNew t 0).bind (Release.gbvEnumRun t [none, some 1, none]), (Release.gbvEnumNew t 0).bind (Release.gbvEnumRun t [some 5]))) =
    some (some 1000000, none, some [5, 1000000], none) := by decide +kernel

/-- **C104**, `elias_fano::select_enumerator`: from a position inside it never returns more values than remain, from a position
outside none at all. -/
theorem C104_select_enumerator (n : Word) (m : Nat) (xs : List Word) (h : Storable n m xs) (hm : m ≤ 2^61) (h0 : m = 0 → n.toNat + 2 ≤ 2^63)
    (wr : Bool) :
    ∃ ef, Machine.EliasFano.ofSeq n (W m) xs wr = some ef ∧ ∀ (i : Word) (k : Nat),
      (i.toNat < xs.length → (Release.selNew ef i).bind (Release.selRun ef k) =
        if i.toNat + k ≤ xs.length then some ((xs.drop i.toNat).take k) else none) ∧
      (xs.length ≤ i.toNat → (Release.selNew ef i).bind (Release.selRun ef (k + 1)) = none) := by
  obtain ⟨ef, hb, e, g, _, em, s⟩ := Machine.EliasFano.ofSeq_eq n m xs h hm h0 wr
  exact ⟨_, em, fun i k => Release.selNew_eq s g (Release.ofSeq_d1 e) i k⟩

example : (Machine.EliasFano.ofSeq 31 6 [5, 5, 17, 29, 29, 30] false).map (fun ef => ((Release.selNew ef 1).bind (Release.selRun ef 5),
    (Release.selNew ef 1).bind (Release.selRun ef 6), (Release.selNew ef 6).bind (Release.selRun ef 1))) =
    some (some [5, 17, 29, 29, 30], none, none) ∧ Storable 31 6 [5, 5, 17, 29, 29, 30] :=
  ⟨by decide +kernel, by decide, by intro x hx; fin_cases hx <;> decide, by simp, by omega, by omega⟩

/-- the four-bit values a `nibble_vector` of the values `v` has: bits above the fourth of a value at an even position go to the
following value -/
def storedNibbles : List Word → List Nat
  | [] => []
  | [a] => [a.toNat % 16, a.toNat / 16 % 16]
  | a :: b :: t => a.toNat % 16 :: (a.toNat / 16 % 16 ||| b.toNat % 16) :: storedNibbles t

theorem nvBytes_get : ∀ (v : List Word) (p : Nat), ((Release.nvBytes v)[p / 2]?).map (fun b : BitVec 8 => ((b >>> (p % 2 * 4)) &&& 0x0F).toNat) = (storedNibbles v)[p]?
  | [], p => rfl
  | [a], p => by
    match p with
    | 0 =>
      have := (Release.nv_pair a 0).1
      simpa [Release.nvBytes, storedNibbles] using this
    | 1 =>
      have := (Release.nv_pair a 0).2
      simpa [Release.nvBytes, storedNibbles] using this
    | p + 2 => simp [Release.nvBytes, storedNibbles]
  | a :: b :: t, p => by
    match p with
    | 0 => exact congrArg some (Release.nv_pair a b).1
    | 1 => exact congrArg some (Release.nv_pair a b).2
    | p + 2 =>
      rw [show (p + 2) / 2 = p / 2 + 1 by omega, Nat.add_mod_right]
      exact nvBytes_get t p

/-- **C104**, `nibble_vector` from any values: position `i` has the nibble stored there. -/
theorem C104_nibble_vector (v : List Word) (hl : v.length < 2^64) : (Release.nvBuild v).size.toNat = v.length ∧
    ∀ i : Word, (Release.nvGet (Release.nvBuild v) i).map BitVec.toNat = (storedNibbles v)[i.toNat]? := by
  rw [Release.nvBuild_eq]
  refine ⟨Machine.W_toNat _ hl, fun i => ?_⟩
  rw [← nvBytes_get]
  unfold Release.nvGet Machine.at_
  have e1 : (i / 2).toNat = i.toNat / 2 := BitVec.toNat_udiv
  have e2 : (i % 2 * 4).toNat = i.toNat % 2 * 4 := by
    rw [BitVec.toNat_mul, show (i % 2).toNat = i.toNat % 2 from BitVec.toNat_umod, show (4 : Word).toNat = 4 from rfl, Nat.mod_eq_of_lt (by omega)]
  rw [e1, e2]
  show Option.map BitVec.toNat ((Release.nvBytes v)[i.toNat / 2]? >>= _) = _
  cases (Release.nvBytes v)[i.toNat / 2]? <;> rfl

/-- **C104**, `nibble_vector` from values below 16: the values, and if their number is odd a zero behind them. -/
theorem C104_nibble_vector_fits : ∀ v : List Word, (∀ x ∈ v, x.toNat < 16) →
    storedNibbles v = v.map BitVec.toNat ++ (if v.length % 2 = 1 then [0] else [])
  | [], _ => rfl
  | [a], h => by
    have := h a (by simp)
    show [_, _] = [_, _]
    rw [Nat.mod_eq_of_lt this, Nat.div_eq_of_lt this]
  | a :: b :: t, h => by
    have ha := h a (by simp)
    have hb := h b (by simp)
    rw [storedNibbles, C104_nibble_vector_fits t fun x hx => h x (by simp [hx]), Nat.mod_eq_of_lt ha, Nat.div_eq_of_lt ha, Nat.mod_eq_of_lt hb, Nat.zero_mod,
      Nat.zero_or]
    simp only [List.map_cons, List.cons_append, List.length_cons, Nat.add_assoc, Nat.add_mod_right]

/-- 33 at an even position changes the value stored behind it; position 3 of three values is answered -/
example : storedNibbles [33, 5, 7] = [1, 7, 7, 0] ∧
    (List.range 5).map (fun i => Release.nvGet (Release.nvBuild [33, 5, 7]) (W i)) = [some 1, some 7, some 7, some 0, none] := by decide +kernel

end Succinct
