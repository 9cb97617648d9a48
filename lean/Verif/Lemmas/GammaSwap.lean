import Verif.Model.GammaSwap
import Verif.Lemmas.EnumSwap
import Verif.Lemmas.Life
import Verif.Lemmas.SeqReads

/-! # Gamma enumerators while containers are swapped -/
namespace Succinct
open Broadword Spec
open RSBitVector (bind_pure_some)
namespace GammaSwap

theorem gcode_eq (c : Nat) (x : Word) (h : x.toNat + c < 2^64) (h0 : x.toNat + c ≠ 0) :
    gcode (BitVec.ofNat 64 c) x = lowBits (x + BitVec.ofNat 64 c) (digits c x) := by
  have hg : glen (BitVec.ofNat 64 c) x = digits c x := glen_log2 c x h h0
  have hlt : digits c x < 64 := by
    unfold digits
    exact (Nat.log2_lt h0).2 h
  unfold gcode tailBits
  rw [hg]
  refine bitFn_ext (by simp) fun p => ?_
  rw [bitFn_lowBits, bitFn_lowBits, BitVec.getLsbD_xor, one_shl_bit _ _ hlt]
  by_cases hp : p < digits c x
  · have : p ≠ digits c x := by omega
    simp [hp, this]
  · simp [hp]

theorem digitSeq_eq (c : Nat) (xs : List Word) (h : ∀ x ∈ xs, x.toNat + c < 2^64 ∧ x.toNat + c ≠ 0) :
    xs.flatMap (gcode (BitVec.ofNat 64 c)) = digitSeq c xs := by
  unfold digitSeq
  induction xs with
  | nil => rfl
  | cons x xs ih =>
    rw [List.flatMap_cons, List.flatMap_cons, ih (fun y hy => h y (by simp [hy])), gcode_eq c x (h x (by simp)).1 (h x (by simp)).2]

theorem digitPos_eq (c : Nat) (xs : List Word) (h : ∀ x ∈ xs, x.toNat + c < 2^64 ∧ x.toNat + c ≠ 0) (k : Nat) :
    goff (BitVec.ofNat 64 c) xs k = digitPos c xs k := by
  unfold goff digitPos
  rw [List.length_flatMap]
  congr 1
  refine List.map_congr_left fun x hx => ?_
  have := h x (List.mem_of_mem_take hx)
  rw [gcode_length]
  exact glen_log2 c x this.1 this.2

theorem bitsToNat_take_lt (s : List Bool) (n : Nat) : bitsToNat (s.take n) < 2^n := by
  refine Nat.lt_pow_two_of_testBit _ fun j hj => ?_
  rw [testBit_bitsToNat, bitFn_take]
  have : ¬ j < n := by omega
  simp [this]

theorem join_val (w z : Word) (l c : Nat) (hl : l < 64) (hw : w.toNat < 2^l) (hc : c ≤ 2^l) (hz : z.toNat + c = 2^l + w.toNat) :
    (w ||| (1 : Word) <<< l) - BitVec.ofNat 64 c = z := by
  have hp : 2^l * 2 ≤ 2^64 := by
    rw [← Nat.pow_succ]
    exact Nat.pow_le_pow_right (by omega) (by omega)
  have h1 : ((1 : Word) <<< l).toNat = 2^l := by
    rw [BitVec.toNat_shiftLeft, Nat.shiftLeft_eq]
    show 1 * 2^l % 2^64 = _
    rw [Nat.one_mul, Nat.mod_eq_of_lt (by omega)]
  have h2 : (w ||| (1 : Word) <<< l).toNat = 2^l + w.toNat := by
    rw [BitVec.toNat_or, h1, Nat.or_comm]
    have := Nat.two_pow_add_eq_or_of_lt hw 1
    rw [Nat.mul_one] at this
    exact this.symm
  have h3 : w ||| (1 : Word) <<< l = z + BitVec.ofNat 64 c := by
    apply BitVec.eq_of_toNat_eq
    rw [h2, BitVec.toNat_add, BitVec.toNat_ofNat, Nat.mod_eq_of_lt (show c < 2^64 by omega), Nat.mod_eq_of_lt (by omega), hz]
  rw [h3, BitVec.add_sub_cancel]

/-- the enumerator before value `k` of `v` -/
structure Ok (hlen : Word → Nat) (v : List Word) (e : GammaEnum) (k : Nat) (src : List Bool) (left p : Nat) : Prop where
  idx : e.idx = k
  pos : e.pos = onePos (0 :: v.map hlen) k
  high : ∃ u, e.high = some u ∧ UEnum.Good (unary (0 :: v.map hlen)) u (onePos (0 :: v.map hlen) k + 1)
  low : Enum.Good src e.low p
  left : e.low.avail = left

theorem take_held (b : BitVector) (src : List Bool) (e : Enum) (p l : Nat) (hg : Enum.Good src e p) (hl : l < 64) (ha : l ≤ e.avail) :
    ∃ w e', Enum.take b e l = some (w, e') ∧ w.toNat = bitsToNat ((src.drop p).take l) ∧ Enum.Good src e' (p + l) ∧ e'.avail = e.avail - l := by
  obtain ⟨w, e', k1, k2, _, k4, _, k6⟩ := EnumSwap.take_core e p l hg (by omega) ha
  refine ⟨w, e', ?_, k2, k4 (by omega), k6⟩
  rw [EnumSwap.take_bind, if_neg (by omega)]
  exact k1

theorem take_fresh (b : BitVector) (s src : List Bool) (hb : Rep b s) (e : Enum) (p l : Nat) (hg : Enum.Good src e p) (hl : l < 64)
    (ha : e.avail < l) (hp : p < s.length) :
    ∃ w e', Enum.take b e l = some (w, e') ∧ w.toNat = bitsToNat (((zeroTail s).drop p).take l) ∧ Enum.Good (zeroTail s) e' (p + l) ∧
      e'.avail = 64 - l := by
  obtain ⟨e1, f1, f2, f3⟩ := Enum.fillBuf_good hb e p hg.pos hp
  obtain ⟨w, e', k1, k2, _, k4, _, k6⟩ := EnumSwap.take_core e1 p l (EnumSwap.Good.zeroTail f2) (by omega) (by omega)
  refine ⟨w, e', ?_, k2, k4 (by omega), by rw [k6, f3]⟩
  rw [EnumSwap.take_bind, if_pos ha, f1]
  exact k1

variable {g : GammaVec} {v : List Word}

theorem nextG_eq (hg : g.Good 1 (glen 1) v) (cur : GammaVec) (n : Nat) (hn : cur.size = some n) (e : GammaEnum) (k : Nat) (src : List Bool)
    (left p : Nat) (he : Ok (glen 1) v e k src left p) (hk : k < v.length) (hkn : k ≤ n) (w : Word) (e' : Enum)
    (ht : Enum.take cur.low e.low (glen 1 v[k]) = some (w, e')) (src' : List Bool) (left' p' : Nat) (hl : Enum.Good src' e' p')
    (ha : e'.avail = left') :
    ∃ en, nextG g.high.bits.bits cur e = some ((w ||| (1 : Word) <<< (glen 1 v[k])) - 1, en) ∧ Ok (glen 1) v en (k+1) src' left' p' := by
  obtain ⟨u, u1, u2⟩ := he.high
  obtain ⟨u', v1, v2⟩ := UEnum.next_good hg.bits.repr u _ _ u2 (unary_gap (0 :: v.map (glen 1)) k (by simp; omega))
  have hs := GammaVec.Good.step (hlen := glen 1) k hk
  unfold nextG
  rw [hn, bind_pure_some, assertP_eq _ (by rw [he.idx]; omega), bind_pure_some, u1, bind_pure_some, v1, bind_pure_some]
  simp only []
  rw [he.pos, subU_eq _ _ (by omega), bind_pure_some, subU_eq _ _ (by omega), bind_pure_some,
    show onePos (0 :: v.map (glen 1)) (k+1) - onePos (0 :: v.map (glen 1)) k - 1 = glen 1 v[k] by omega, ht, bind_pure_some]
  simp only []
  rw [shl_eq _ _ (hg.hl _ (List.getElem_mem hk)), bind_pure_some]
  exact ⟨_, rfl, by simp [he.idx], rfl, ⟨u', rfl, v2⟩, hl, ha⟩

open GammaBitVector (hlen) in
theorem nextB_eq (hg : g.Good 2 hlen v) (hp : ∀ x ∈ v, 1 ≤ glen 2 x) (cur : GammaVec) (n : Nat) (hn : cur.size = some n) (e : GammaEnum) (k : Nat)
    (src : List Bool) (left p : Nat) (he : Ok hlen v e k src left p) (hk : k < v.length) (hkn : k ≤ n) (w : Word) (e' : Enum)
    (ht : Enum.take cur.low e.low (glen 2 v[k]) = some (w, e')) (src' : List Bool) (left' p' : Nat) (hl : Enum.Good src' e' p')
    (ha : e'.avail = left') :
    ∃ en, nextB g.high.bits.bits cur e = some ((w ||| (1 : Word) <<< (glen 2 v[k])) - 2, en) ∧ Ok hlen v en (k+1) src' left' p' := by
  obtain ⟨u, u1, u2⟩ := he.high
  obtain ⟨u', v1, v2⟩ := UEnum.next_good hg.bits.repr u _ _ u2 (unary_gap (0 :: v.map hlen) k (by simp; omega))
  have hs := GammaVec.Good.step (hlen := hlen) k hk
  have h1 := hp v[k] (List.getElem_mem hk)
  have hs' : hlen v[k] + 1 = glen 2 v[k] := by unfold hlen; omega
  have hlt := (glen_spec 2 v[k] (hg.nz _ (List.getElem_mem hk))).2.1
  unfold nextB
  rw [hn, bind_pure_some, assertP_eq _ (by rw [he.idx]; omega), bind_pure_some, u1, bind_pure_some, v1, bind_pure_some]
  simp only []
  rw [he.pos, subU_eq _ _ (by omega), bind_pure_some, subU_eq _ _ (by omega), bind_pure_some,
    show onePos (0 :: v.map hlen) (k+1) - onePos (0 :: v.map hlen) k - 1 + 1 = glen 2 v[k] by omega, ht, bind_pure_some]
  simp only []
  rw [shl_eq _ _ hlt, bind_pure_some]
  exact ⟨_, rfl, by simp [he.idx], rfl, ⟨u', rfl, v2⟩, hl, ha⟩

theorem digitPos_succ (c : Nat) (v : List Word) (k : Nat) (hk : k < v.length) : digitPos c v (k+1) = digitPos c v k + digits c v[k] := by
  unfold digitPos
  rw [List.take_succ_eq_append_getElem hk, List.map_append, List.sum_append]
  simp

theorem swap_eq (s : Objs GammaVec) (x y : Nat) : GammaVec.swap .whole s x y = swapped s x y := by
  rw [GammaVec.swap_eq Field.whole_ok, stdSwap_whole]
  rfl

/-- what the two kinds of containers have in common -/
structure Kind (c : Nat) (hlen : Word → Nat) (next : List Word → GammaVec → GammaEnum → Option (Word × GammaEnum)) (v : List Word)
    (hw : List Word) : Prop where
  dig : ∀ (k : Nat) (y : Word), v[k]? = some y → digits c y < 64 ∧ c ≤ 2^digits c y
  next : ∀ (cur : GammaVec) (n : Nat), cur.size = some n → ∀ (e : GammaEnum) (k : Nat) (src : List Bool) (left p : Nat), Ok hlen v e k src left p →
    ∀ y, v[k]? = some y → k ≤ n → ∀ (w : Word) (e' : Enum), Enum.take cur.low e.low (digits c y) = some (w, e') →
    ∀ (src' : List Bool) (left' p' : Nat), Enum.Good src' e' p' → e'.avail = left' →
    ∃ en, next hw cur e = some ((w ||| (1 : Word) <<< digits c y) - BitVec.ofNat 64 c, en) ∧ Ok hlen v en (k+1) src' left' p'

theorem run_mix {c : Nat} {hlen : Word → Nat} {next : List Word → GammaVec → GammaEnum → Option (Word × GammaEnum)} {hw : List Word}
    (hk : Kind c hlen next v hw) (i : Nat) {a : Nat → List Word} {src : List Bool} {left k : Nat} {ops : List SeqOp} {outs : List Word}
    (h : GammaMix c i v a src left k ops outs) : ∀ (s : Objs GammaVec) (e : GammaEnum),
      (∀ j, (s j).size = some (a j).length ∧ Rep (s j).low (digitSeq c (a j))) → Ok hlen v e k src left (digitPos c v k) →
      run next i hw s e ops = some outs := by
  induction h with
  | nil => intro s e _ _; rfl
  | swap _ ih =>
    intro s e hs he
    unfold run
    rw [swap_eq]
    refine ih _ _ (fun j => ?_) he
    unfold swapped
    split
    · exact hs _
    · split <;> exact hs _
  | held hy hle hl hz _ ih =>
    rename_i a src left k ops outs y z _
    intro s e hs he
    obtain ⟨d1, d2⟩ := hk.dig _ _ hy
    obtain ⟨w, e', t1, t2, t3, t4⟩ := take_held (s i).low src e.low _ _ he.low d1 (by rw [he.left]; exact hl)
    obtain ⟨en, n1, n2⟩ := hk.next (s i) _ (hs i).1 e k src left _ he y hy hle w e' t1 src _ _ t3 rfl
    have hlt : w.toNat < 2^digits c y := by rw [t2]; exact bitsToNat_take_lt _ _
    rw [← t2] at hz
    obtain ⟨hkl, hyk⟩ := List.getElem?_eq_some_iff.1 hy
    unfold run
    rw [n1, bind_pure_some, join_val w z _ c d1 hlt d2 hz]
    simp only []
    rw [ih s en hs (by rw [digitPos_succ c v k hkl, hyk, ← he.left, ← t4]; exact n2)]
    rfl
  | fresh hy hle hl hp hz _ ih =>
    rename_i a src left k ops outs y z _
    intro s e hs he
    obtain ⟨d1, d2⟩ := hk.dig _ _ hy
    obtain ⟨w, e', t1, t2, t3, t4⟩ := take_fresh (s i).low _ src (hs i).2 e.low _ _ he.low d1 (by rw [he.left]; exact hl) hp
    obtain ⟨en, n1, n2⟩ := hk.next (s i) _ (hs i).1 e k src left _ he y hy hle w e' t1 _ _ _ t3 rfl
    have hlt : w.toNat < 2^digits c y := by rw [t2]; exact bitsToNat_take_lt _ _
    rw [← t2] at hz
    obtain ⟨hkl, hyk⟩ := List.getElem?_eq_some_iff.1 hy
    unfold run
    rw [n1, bind_pure_some, join_val w z _ c d1 hlt d2 hz]
    simp only []
    rw [ih s en hs (by rw [digitPos_succ c v k hkl, hyk, ← t4]; exact n2)]
    rfl

end GammaSwap
end Succinct
