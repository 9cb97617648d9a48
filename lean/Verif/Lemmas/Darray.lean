import Verif.Model.Work
import Verif.Lemmas.Ones
import Verif.Lemmas.RSBitVector

/-! Construction and select of `darray`. -/
namespace Succinct
namespace Darray
open Broadword
export RSBitVector (bind_pure_some)

theorem mapM_some {α β : Type} (f : α → Option β) (g : α → β) (l : List α) (h : ∀ x ∈ l, f x = some (g x)) :
    l.mapM f = some (l.map g) := by
  induction l with
  | nil => rfl
  | cons a l ih =>
    rw [List.mapM_cons, h a (by simp), bind_pure_some, ih (fun x hx => h x (by simp [hx])), bind_pure_some]; rfl

/-- the inventories describe block `i`, whose positions are `B` -/
def BOK (d : DInv) (i : Nat) (B : List Nat) : Prop :=
  ∃ v : Int, d.block[i]? = some v ∧
    ((∃ front : Nat, v = front ∧ (∀ p ∈ B, p < front + 2^16) ∧ ∀ k, 32*k < B.length → ∃ p, B[32*k]? = some p ∧ front ≤ p ∧ d.subblock[32*i+k]? = some (p - front)) ∨
     (∃ o : Nat, v = -(o:Int) - 1 ∧ ∀ j, j < B.length → ∃ p, B[j]? = some p ∧ d.overflow[o+j]? = some p))

theorem getElem?_append_some {α : Type} {l m : List α} {i : Nat} {x : α} (h : l[i]? = some x) : (l ++ m)[i]? = some x := by
  have : i < l.length := by
    by_contra hh
    rw [List.getElem?_eq_none (by omega)] at h; simp at h
  rw [List.getElem?_append_left this]; exact h

theorem BOK.mono {d : DInv} {i : Nat} {B : List Nat} (h : BOK d i B) (x : List Int) (y z : List Nat) :
    BOK ⟨d.block ++ x, d.subblock ++ y, d.overflow ++ z⟩ i B := by
  obtain ⟨v, h1, h2⟩ := h
  refine ⟨v, getElem?_append_some h1, ?_⟩
  rcases h2 with ⟨front, e, h3, h2⟩ | ⟨o, e, h2⟩
  · refine Or.inl ⟨front, e, h3, ?_⟩
    intro k hk
    obtain ⟨p, a, b, c⟩ := h2 k hk
    exact ⟨p, a, b, getElem?_append_some c⟩
  · refine Or.inr ⟨o, e, ?_⟩
    intro j hj
    obtain ⟨p, a, b⟩ := h2 j hj
    exact ⟨p, a, getElem?_append_some b⟩

theorem flush_spec (cur : List Nat) (d : DInv) (i : Nat) (hne : cur ≠ [])
    (hmono : ∀ i j (hj : j < cur.length) (hij : i ≤ j), cur[i] ≤ cur[j])
    (hb : d.block.length = i) (hs : d.subblock.length = 32*i) :
    ∃ d', flush cur d = some d' ∧ d'.block.length = i+1 ∧ d'.subblock.length = 32*i + (cur.length+31)/32 ∧ BOK d' i cur ∧
      ∀ j B, BOK d j B → BOK d' j B := by
  have hpos : 0 < cur.length := List.length_pos_iff.2 hne
  unfold flush
  have e1 : cur.getLast? = some (cur[cur.length-1]) := by
    rw [List.getLast?_eq_getElem?, List.getElem?_eq_getElem]
  have e2 : cur.head? = some cur[0] := by rw [List.head?_eq_getElem?, List.getElem?_eq_getElem]
  have hd := hmono 0 (cur.length-1) (by omega) (by omega)
  simp only [e1, e2, bind_pure_some, subU_eq _ _ hd]
  by_cases hlt : cur[cur.length-1] - cur[0] < 2^16
  · rw [if_pos hlt]
    have hm := mapM_some (fun k => subOffset cur cur[0] (32*k)) (fun k => cur.getD (32*k) 0 - cur[0])
      (List.range ((cur.length+31)/32)) (by
        intro k hk
        rw [List.mem_range] at hk
        have hk' : 32*k < cur.length := by omega
        have h1 := hmono 0 (32*k) hk' (by omega)
        have h2 := hmono (32*k) (cur.length-1) (by omega) (by omega)
        unfold subOffset rd
        rw [List.getElem?_eq_getElem hk', bind_pure_some, subU_eq _ _ h1, bind_pure_some, Nat.mod_eq_of_lt (by omega),
          List.getD_eq_getElem?_getD, List.getElem?_eq_getElem hk']; rfl)
    rw [hm, bind_pure_some]
    refine ⟨_, rfl, by simp [hb], by simp [hs], ?_, ?_⟩
    · refine ⟨_, by rw [List.getElem?_append_right (by omega), hb, Nat.sub_self]; rfl, Or.inl ⟨cur[0], rfl, ?_, ?_⟩⟩
      · intro p hp
        obtain ⟨j, hj, rfl⟩ := List.mem_iff_getElem.1 hp
        have := hmono j (cur.length-1) (by omega) (by omega)
        omega
      intro k hk
      refine ⟨cur[32*k], List.getElem?_eq_getElem hk, hmono 0 (32*k) hk (by omega), ?_⟩
      simp only []
      rw [List.getElem?_append_right (by omega), hs, show 32*i+k-32*i = k by omega, List.getElem?_map,
        List.getElem?_range (by omega), Option.map_some, List.getD_eq_getElem?_getD, List.getElem?_eq_getElem hk]; rfl
    · intro j B h
      have := h.mono [(cur[0] : Int)] ((List.range ((cur.length+31)/32)).map fun k => cur.getD (32*k) 0 - cur[0]) []
      rw [List.append_nil] at this; exact this
  · rw [if_neg hlt]
    refine ⟨_, rfl, by simp [hb], by simp [hs], ?_, ?_⟩
    · refine ⟨_, by rw [List.getElem?_append_right (by omega), hb, Nat.sub_self]; rfl, Or.inr ⟨d.overflow.length, rfl, ?_⟩⟩
      intro j hj
      refine ⟨cur[j], List.getElem?_eq_getElem hj, ?_⟩
      simp only []
      rw [List.getElem?_append_right (by omega), show d.overflow.length + j - d.overflow.length = j by omega,
        List.getElem?_eq_getElem hj]
    · intro j B h
      exact h.mono _ _ _

/-- the positions of block `i` -/
def blk (P : List Nat) (i : Nat) : List Nat := (P.drop (1024*i)).take 1024

structure BInv (P : List Nat) (m : Nat) (st : BuildState) : Prop where
  pos : st.positions = m
  cur : st.cur = (P.take m).drop (1024*(m/1024))
  bl : st.inv.block.length = m/1024
  sl : st.inv.subblock.length = 32*(m/1024)
  ok : ∀ i, i < m/1024 → BOK st.inv i (blk P i)

def Mono (P : List Nat) : Prop := ∀ i j (hj : j < P.length) (hij : i ≤ j), P[i] ≤ P[j]

theorem Mono.drop {P : List Nat} (h : Mono P) (a : Nat) : Mono (P.drop a) := by
  intro i j hj hij
  rw [List.length_drop] at hj
  rw [List.getElem_drop, List.getElem_drop]
  exact h _ _ (by omega) (by omega)
theorem Mono.take {P : List Nat} (h : Mono P) (a : Nat) : Mono (P.take a) := by
  intro i j hj hij
  rw [List.length_take] at hj
  rw [List.getElem_take, List.getElem_take]
  exact h _ _ (by omega) (by omega)

theorem pushPos_inv (P : List Nat) (hP : Mono P) (m : Nat) (hm : m < P.length) (st : BuildState) (h : BInv P m st) :
    ∃ st', pushPos st P[m] = some st' ∧ BInv P (m+1) st' := by
  have hc : st.cur ++ [P[m]] = (P.take (m+1)).drop (1024*(m/1024)) := by
    rw [h.cur, List.take_succ_eq_append_getElem hm, List.drop_append_of_le_length (by rw [List.length_take]; omega)]
  unfold pushPos
  simp only [hc]
  have hl : ((P.take (m+1)).drop (1024*(m/1024))).length = m+1 - 1024*(m/1024) := by
    rw [List.length_drop, List.length_take]; omega
  by_cases hf : m % 1024 = 1023
  · rw [if_pos (by omega)]
    have hcb : (P.take (m+1)).drop (1024*(m/1024)) = blk P (m/1024) := by
      unfold blk; rw [List.drop_take]; congr 1; omega
    rw [hcb] at hl ⊢
    obtain ⟨d', e, b1, s1, k1, k2⟩ := flush_spec (blk P (m/1024)) st.inv (m/1024) (by
      intro hh; rw [hh] at hl; simp at hl; omega) (by
      have := (hP.drop (1024*(m/1024))).take 1024
      exact this) h.bl h.sl
    rw [e, bind_pure_some]
    refine ⟨_, rfl, by simp [h.pos], ?_, by rw [b1]; omega, by rw [s1]; omega, ?_⟩
    · simp only []
      rw [List.drop_eq_nil_of_le]; rw [List.length_take]; omega
    · intro i hi
      rcases Nat.lt_or_ge i (m/1024) with h1 | h1
      · exact k2 i _ (h.ok i h1)
      · rw [show i = m/1024 by omega]; exact k1
  · rw [if_neg (by omega)]
    refine ⟨_, rfl, by simp [h.pos], ?_, by rw [h.bl]; omega, by rw [h.sl]; omega, ?_⟩
    · simp only []; congr 2; omega
    · intro i hi; exact h.ok i (by omega)

theorem fold_inv (P : List Nat) (hP : Mono P) (k m : Nat) (hk : m + k = P.length) (st : BuildState) (h : BInv P m st) :
    ∃ st', (P.drop m).foldlM pushPos st = some st' ∧ BInv P P.length st' := by
  induction k generalizing m st with
  | zero =>
    rw [List.drop_eq_nil_of_le (by omega)]
    exact ⟨st, rfl, by rw [← hk]; exact h⟩
  | succ k ih =>
    obtain ⟨st1, e1, h1⟩ := pushPos_inv P hP m (by omega) st h
    obtain ⟨st2, e2, h2⟩ := ih (m+1) (by omega) st1 h1
    exact ⟨st2, by rw [List.drop_eq_getElem_cons (by omega), List.foldlM_cons, e1, bind_pure_some, e2], h2⟩

/-- the bit seen through the word getter -/
def gbit (neg : Bool) (data : List Word) (p : Nat) : Bool := wbit data p ^^ neg

theorem getWord_eq (neg : Bool) (data : List Word) (i : Nat) (h : i < data.length) :
    ∃ w, getWord neg data i = some w ∧ ∀ t, t < 64 → w.getLsbD t = gbit neg data (64*i+t) := by
  unfold getWord
  rw [rd_eq _ _ h, bind_pure_some]
  refine ⟨_, rfl, ?_⟩
  intro t ht
  unfold gbit
  rw [← getElem_getLsbD _ _ _ h ht]
  cases neg <;> simp [ht]

theorem scanWord_eq (F : Nat → Bool) (size E : Nat) (fuel : Nat) (w : Word) (c : Nat) (st : BuildState)
    (hw : ∀ t, w.getLsbD t = (decide (c + t < E) && F (c+t))) (hc : c ≤ E) (hE : E < c + fuel) :
    scanWord size fuel w c st = (onesIn F c (min E size)).foldlM pushPos st := by
  induction fuel generalizing w c st with
  | zero =>
    omega
  | succ fuel ih =>
    rw [scanWord]
    cases hl : lsb w with
    | none =>
      rw [onesIn_nil]; rfl
      intro p h1 h2
      have hz := (lsb_none w).mp hl
      have := hw (p - c)
      rw [hz, show c + (p - c) = p by omega] at this
      have h3 : p < E := by omega
      simpa [h3] using this.symm
    | some l =>
      obtain ⟨h1, h2, h3⟩ := (lsb_some w l).mp hl
      simp only []
      have hlt : c + l < E ∧ F (c+l) = true := by
        have := hw l
        rw [h2] at this
        have := this.symm
        simp only [Bool.and_eq_true, decide_eq_true_eq] at this; exact this
      have hz : ∀ p, c ≤ p → p < c + l → F p = false := by
        intro p a b
        have := hw (p - c)
        rw [h3 _ (by omega), show c + (p - c) = p by omega] at this
        have h4 : p < E := by omega
        simpa [h4] using this.symm
      split
      · rename_i hge
        rw [onesIn_nil]; rfl
        intro p a b
        exact hz p a (by omega)
      · rename_i hge
        rw [onesIn_split F (show c ≤ c+l by omega) (show c + l ≤ min E size by omega), onesIn_nil hz, List.nil_append,
          onesIn_cons (by omega) hlt.2, List.foldlM_cons]
        congr 1; funext st'
        apply ih
        · intro t
          rw [BitVec.getLsbD_ushiftRight, BitVec.getLsbD_ushiftRight, hw, show c + (l + (1+t)) = c+l+1+t by omega]
        · omega
        · omega

theorem scan_eq (neg : Bool) (data : List Word) (size : Nat) (k i : Nat) (st : BuildState) (hk : i + k = data.length)
    (hs : size ≤ 64 * data.length) :
    scan neg data size k i st = (onesIn (gbit neg data) (64*i) size).foldlM pushPos st := by
  induction k generalizing i st with
  | zero => rw [onesIn_of_ge _ (by omega)]; rfl
  | succ k ih =>
    obtain ⟨w, e, hw⟩ := getWord_eq neg data i (by omega)
    rw [scan, e, bind_pure_some, scanWord_eq (gbit neg data) size (64*(i+1)) 65 w (i*64) st (by
      intro t
      rw [Nat.mul_comm i 64]
      by_cases ht : t < 64
      · rw [hw t ht]; simp; omega
      · rw [BitVec.getLsbD_of_ge _ _ (by omega)]; simp; omega) (by omega) (by omega)]
    rw [Nat.mul_comm i 64]
    rcases Nat.lt_or_ge size (64*(i+1)) with h | h
    · rw [show min (64*(i+1)) size = size by omega]
      have : ∀ st', scan neg data size k (i+1) st' = some st' := by
        intro st'; rw [ih (i+1) st' (by omega), onesIn_of_ge _ (by omega)]; rfl
      simp only [this]
      cases (onesIn (gbit neg data) (64*i) size).foldlM pushPos st <;> rfl
    · rw [show min (64*(i+1)) size = 64*(i+1) by omega, onesIn_split (gbit neg data) (show 64*i ≤ 64*(i+1) by omega) h,
        List.foldlM_append]
      congr 1; funext st'
      exact ih (i+1) st' (by omega)

theorem mono_onesIn (F : Nat → Bool) (n : Nat) : Mono (onesIn F 0 n) := by
  intro i j hj hij
  obtain ⟨_, _, hi'⟩ := onesIn_getElem?_iff.1 (List.getElem?_eq_getElem (show i < (onesIn F 0 n).length by omega))
  obtain ⟨_, hf, hj'⟩ := onesIn_getElem?_iff.1 (List.getElem?_eq_getElem hj)
  rcases Nat.lt_or_ge (onesIn F 0 n)[j] (onesIn F 0 n)[i] with h | h
  · have := cnt_lt_of_true h hf; omega
  · exact h

/-- what the constructor achieves -/
theorem build_spec (neg : Bool) (bv : BitVector) (hs : bv.size ≤ 64 * bv.bits.length) :
    ∃ d, build neg bv = some d ∧ d.positions = cnt (gbit neg bv.bits) bv.size ∧
      ∀ i, 1024*i < cnt (gbit neg bv.bits) bv.size → BOK d.inv i (blk (onesIn (gbit neg bv.bits) 0 bv.size) i) := by
  unfold build
  have hm := mono_onesIn (gbit neg bv.bits) bv.size
  have hl := onesIn_length (gbit neg bv.bits) bv.size
  rw [scan_eq neg bv.bits bv.size bv.bits.length 0 _ (by omega) hs, Nat.mul_zero]
  generalize onesIn (gbit neg bv.bits) 0 bv.size = P at *
  rw [← hl]
  obtain ⟨st, e, h⟩ := fold_inv P hm P.length 0 (by omega) ⟨[], ⟨[], [], []⟩, 0⟩ ⟨rfl, by simp, rfl, rfl, by intro i hi; omega⟩
  rw [List.drop_zero] at e
  rw [e, bind_pure_some]
  have hc : st.cur = blk P (P.length/1024) := by
    rw [h.cur, List.take_length]; unfold blk
    rw [List.take_of_length_le]; rw [List.length_drop]; omega
  have hcl : st.cur.length = P.length - 1024*(P.length/1024) := by rw [h.cur, List.take_length, List.length_drop]
  by_cases h0 : st.cur.length = 0
  · rw [if_neg (by omega)]
    refine ⟨_, rfl, h.pos, ?_⟩
    intro i hi
    exact h.ok i (by omega)
  · rw [if_pos h0]
    obtain ⟨d', e', b1, s1, k1, k2⟩ := flush_spec st.cur st.inv (P.length/1024) (by
      intro hh; rw [hh] at h0; simp at h0) (by rw [hc]; exact (hm.drop _).take _) h.bl h.sl
    rw [e', bind_pure_some]
    refine ⟨_, rfl, h.pos, ?_⟩
    intro i hi
    rcases Nat.lt_or_ge i (P.length/1024) with h1 | h1
    · exact k2 i _ (h.ok i h1)
    · rw [show i = P.length/1024 by omega, ← hc]; exact k1

/-- the word loop of `select` -/
theorem selectLoop_spec (get : Nat → Option Word) (len : Nat) (G : Nat → Bool) (r p : Nat) (hp : G p = true)
    (hr : cnt G p = r) (hpl : p < 64*len) (fuel : Nat) (word : Word) (idx rem : Nat)
    (hget : ∀ j, idx < j → j < len → ∃ w, get j = some w ∧ ∀ t, t < 64 → w.getLsbD t = G (64*j+t))
    (hw : ∀ t, t < 64 → word.getLsbD t = G (64*idx+t)) (hrem : rem + cnt G (64*idx) = r)
    (hf : len ≤ fuel + idx) (hidx : 64*idx ≤ p) :
    selectLoop get fuel word idx rem = some p := by
  induction fuel generalizing word idx rem with
  | zero => omega
  | succ fuel ih =>
    have h64 : cnt G (64*idx+64) = cnt G (64*idx) + popcount word := by
      rw [cnt_add, popcount_eq]; congr 1
      apply cnt_congr; intro t ht; rw [hw t ht]
    rw [selectLoop]
    split
    · rename_i hlt
      obtain ⟨e, s1, s2, s3⟩ := RSBitVector.select_word word G idx r hw (by omega) (by rw [Nat.mul_succ]; omega)
      rw [show r - cnt G (64*idx) = rem by omega] at s1
      rw [s1, bind_pure_some]
      have := sel_unique hp s2 (by omega)
      rw [this]; rfl
    · rename_i hge
      have hnext : 64*(idx+1) ≤ p := by
        rcases Nat.lt_or_ge p (64*(idx+1)) with h | h
        · have := cnt_lt_of_true h hp
          rw [Nat.mul_succ] at this; omega
        · exact h
      obtain ⟨w, e, hw'⟩ := hget (idx+1) (by omega) (by omega)
      rw [e, bind_pure_some]
      exact ih w (idx+1) _ (fun j a b => hget j (by omega) b) hw' (by rw [Nat.mul_succ]; omega) (by omega) hnext

theorem selectFrom_spec (get : Nat → Option Word) (len : Nat) (F : Nat → Bool)
    (hget : ∀ j, j < len → ∃ w, get j = some w ∧ ∀ t, t < 64 → w.getLsbD t = F (64*j+t))
    (s r p : Nat) (hs : F s = true) (hp : F p = true) (hr : cnt F p = cnt F s + r) (hpl : p < 64*len)
    (k : Nat) (hk : p < 64 * (k + s/64)) :
    selectFrom get k s r = some p := by
  unfold selectFrom
  have hsp : s ≤ p := by
    rcases Nat.lt_or_ge p s with h | h
    · have := cnt_lt_of_true h hp; omega
    · exact h
  split
  · rename_i h0
    subst h0
    rw [sel_unique hs hp (by omega)]; rfl
  · simp only []
    obtain ⟨w, e, hw⟩ := hget (s/64) (by omega)
    rw [e, bind_pure_some, shl_eq _ _ (by omega), bind_pure_some]
    have hG : ∀ q, s ≤ q → cnt (fun x => F x && decide (s ≤ x)) q + cnt F s = cnt F q := by
      intro q hq
      obtain ⟨k, rfl⟩ : ∃ k, q = s + k := ⟨q - s, by omega⟩
      rw [cnt_add, cnt_add, cnt_false, Nat.zero_add, Nat.add_comm]
      · congr 1
        apply cnt_congr; intro i hi; simp
      · intro i hi; simp; omega
    apply selectLoop_spec get (p/64+1) (fun x => F x && decide (s ≤ x)) r p (by simp [hp, hsp])
      (by have := hG p hsp; omega) (by omega)
    · intro j h1 h2
      obtain ⟨w', e', hw'⟩ := hget j (by omega)
      refine ⟨w', e', ?_⟩
      intro t ht
      rw [hw' t ht]; simp; omega
    · intro t ht
      rw [BitVec.getLsbD_and, hw t ht, BitVec.getLsbD_shiftLeft]
      simp only [ht, decide_true, Bool.true_and, BitVec.getLsbD_allOnes]
      congr 1
      by_cases h : s ≤ 64*(s/64)+t
      · simp [h]; omega
      · simp [h]; omega
    · rw [cnt_false]; rfl
      intro i hi; simp; omega
    · omega
    · omega

/-- `select` cut off after `k` words -/
theorem selectWithin_spec (neg : Bool) (bv : BitVector) (hs : bv.size ≤ 64 * bv.bits.length) (d : Darray)
    (hpos : d.positions = cnt (gbit neg bv.bits) bv.size)
    (hok : ∀ i, 1024*i < cnt (gbit neg bv.bits) bv.size → BOK d.inv i (blk (onesIn (gbit neg bv.bits) 0 bv.size) i))
    (idx p : Nat) (hp : p < bv.size) (hf : gbit neg bv.bits p = true) (hc : cnt (gbit neg bv.bits) p = idx)
    (k : Nat) (hk : ∀ s, s ≤ p → p < s + 2^16 → p < 64 * (k + s/64)) : selectWithin k neg d bv idx = some p := by
  have hlt := cnt_lt_of_true hp hf
  unfold selectWithin
  rw [assertP_eq _ (by omega), bind_pure_some]
  obtain ⟨v, e, h⟩ := hok (idx/1024) (by omega)
  have hlen := onesIn_length (gbit neg bv.bits) bv.size
  have hget : ∀ j, j < 1024 → (blk (onesIn (gbit neg bv.bits) 0 bv.size) (idx/1024))[j]? =
      (onesIn (gbit neg bv.bits) 0 bv.size)[1024*(idx/1024)+j]? := by
    intro j hj
    unfold blk
    rw [List.getElem?_take_of_lt hj, List.getElem?_drop]
  have hbl : (blk (onesIn (gbit neg bv.bits) 0 bv.size) (idx/1024)).length =
      min 1024 (cnt (gbit neg bv.bits) bv.size - 1024*(idx/1024)) := by
    unfold blk; rw [List.length_take, List.length_drop, hlen]
  unfold rd
  rw [e, bind_pure_some]
  rcases h with ⟨front, rfl, hB, h⟩ | ⟨o, rfl, h⟩
  · rw [if_neg (by omega)]
    obtain ⟨q, q1, q2, q3⟩ := h (idx%1024/32) (by omega)
    rw [hget _ (by omega), onesIn_getElem?_iff] at q1
    rw [show 32*(idx/1024) + idx%1024/32 = idx/32 by omega] at q3
    rw [q3, bind_pure_some, show (front : Int).toNat + (q - front) = q by simp; omega]
    apply selectFrom_spec (getWord neg bv.bits) bv.bits.length (gbit neg bv.bits) (fun j hj => getWord_eq neg bv.bits j hj) q
      (idx%32) p q1.2.1 hf
    · rw [q1.2.2, hc]; omega
    · omega
    · have hp2 : (blk (onesIn (gbit neg bv.bits) 0 bv.size) (idx/1024))[idx%1024]? = some p := by
        rw [hget _ (by omega), onesIn_getElem?_iff]
        exact ⟨hp, hf, by rw [hc]; omega⟩
      have := hB p (List.mem_of_getElem? hp2)
      apply hk
      · rcases Nat.lt_or_ge p q with h' | h'
        · have := cnt_lt_of_true h' hf; omega
        · exact h'
      · omega
  · rw [if_pos (by omega)]
    obtain ⟨q, q1, q2⟩ := h (idx%1024) (by omega)
    rw [hget _ (by omega), onesIn_getElem?_iff] at q1
    rw [show (-(-(o:Int)-1)-1).toNat = o by omega, q2]
    rw [sel_unique q1.2.1 hf (by omega)]

theorem select_spec (neg : Bool) (bv : BitVector) (hs : bv.size ≤ 64 * bv.bits.length) (d : Darray)
    (hpos : d.positions = cnt (gbit neg bv.bits) bv.size)
    (hok : ∀ i, 1024*i < cnt (gbit neg bv.bits) bv.size → BOK d.inv i (blk (onesIn (gbit neg bv.bits) 0 bv.size) i))
    (idx p : Nat) (hp : p < bv.size) (hf : gbit neg bv.bits p = true) (hc : cnt (gbit neg bv.bits) p = idx) :
    select neg d bv idx = some p :=
  selectWithin_spec neg bv hs d hpos hok idx p hp hf hc (bv.bits.length + 1) fun s _ _ => by omega

end Darray
end Succinct
