import Verif.Model.MachineEF
import Verif.Lemmas.MachineBuilder
import Verif.Lemmas.Darray64
import Verif.Lemmas.SpaceDarray

/-! # The 64-bit transcription of `darray` and `darray64` follows the model -/
namespace Succinct
namespace Machine
open Broadword
open Succinct.RSBitVector (bind_pure_some)

theorem W_modc (n c : Nat) (hc : c < 2^64) (hd : c ∣ 2^64) : W n % W c = W (n % c) := by
  apply BitVec.eq_of_toNat_eq
  rw [BitVec.toNat_umod, W_toNat c hc, BitVec.toNat_ofNat, BitVec.toNat_ofNat]
  rw [Nat.mod_mod_of_dvd _ hd]
  rcases Nat.eq_zero_or_pos c with rfl | h0
  · exact absurd hd (by decide)
  · exact (Nat.mod_eq_of_lt (Nat.lt_trans (Nat.mod_lt _ h0) hc)).symm

theorem divc (a : Word) (c : Nat) (hc : c < 2^64) : (a / W c).toNat = a.toNat / c := by
  rw [BitVec.toNat_udiv, W_toNat c hc]
theorem modc (a : Word) (c : Nat) (hc : c < 2^64) : (a % W c).toNat = a.toNat % c := by
  rw [BitVec.toNat_umod, W_toNat c hc]

namespace Darray

/-- the inventories in memory -/
def encI (d : Succinct.DInv) : DInv := ⟨d.block.map (BitVec.ofInt 64), d.subblock.map W, d.overflow.map W⟩
/-- the object in memory -/
def enc (d : Succinct.Darray) : Darray := ⟨W d.positions, encI d.inv⟩
def encS (st : Succinct.Darray.BuildState) : BuildState := ⟨st.cur.map W, encI st.inv, W st.positions⟩

theorem ofInt_nat (n : Nat) : BitVec.ofInt 64 (n : Int) = W n := by
  apply BitVec.eq_of_toNat_eq
  rw [BitVec.toNat_ofInt, BitVec.toNat_ofNat]; omega

theorem ofInt_neg (n : Nat) : BitVec.ofInt 64 (-(n : Int) - 1) = -(W n) - 1 := by
  apply BitVec.eq_of_toNat_eq
  rw [BitVec.toNat_ofInt, BitVec.toNat_sub, BitVec.toNat_neg, BitVec.toNat_ofNat, show (1 : Word).toNat = 1 from rfl]; omega

theorem subOffset_eq (cur : List Nat) (front i : Nat) (x : Nat) (h : Succinct.Darray.subOffset cur front i = some x) :
    subOffset (cur.map W) (W front) i = some (W x) := by
  unfold Succinct.Darray.subOffset at h
  simp only [Option.bind_eq_bind, Option.bind_eq_some_iff] at h
  obtain ⟨p, hp, d, hd, hx⟩ := h
  obtain ⟨h1, rfl⟩ := Succinct.Darray.subU_eq_some hd
  have hx : (p - front) % 2^16 = x := Option.some.inj hx
  subst hx
  unfold subOffset
  have : rd (cur.map W) i = some (W p) := by unfold rd at hp ⊢; rw [List.getElem?_map, hp]; rfl
  rw [this, bind_pure_some, ← W_sub _ _ h1, show (65536 : Word) = W (2^16) from rfl, W_modc _ _ (by decide) (by decide)]
  rfl

theorem mapM_some {α β β' : Type} (f : α → Option β) (g : α → Option β') (e : β → β') (hfg : ∀ a b, f a = some b → g a = some (e b)) :
    ∀ (l : List α) (r : List β), l.mapM f = some r → l.mapM g = some (r.map e)
  | [], r, h => by
    simp only [List.mapM_nil, Option.pure_def, Option.some.injEq] at h ⊢
    subst h; rfl
  | a :: l, r, h => by
    rw [List.mapM_cons] at h ⊢
    simp only [Option.bind_eq_bind, Option.bind_eq_some_iff] at h
    obtain ⟨b, hb, bs, hbs, hr⟩ := h
    have hr : b :: bs = r := Option.some.inj hr
    subst hr
    rw [hfg a b hb, bind_pure_some, mapM_some f g e hfg l bs hbs, bind_pure_some]; rfl

theorem flush_eq (cur : List Nat) (d d' : Succinct.DInv) (h : Succinct.Darray.flush cur d = some d') (hc : ∀ x ∈ cur, x < 2^64) :
    flush (cur.map W) (encI d) = some (encI d') := by
  unfold Succinct.Darray.flush at h
  simp only [Option.bind_eq_bind, Option.bind_eq_some_iff] at h
  obtain ⟨back, hb, front, hf, dist, hd, h⟩ := h
  obtain ⟨h1, rfl⟩ := Succinct.Darray.subU_eq_some hd
  have hbm : (cur.map W).getLast? = some (W back) := by rw [List.getLast?_map, hb]; rfl
  have hfm : (cur.map W).head? = some (W front) := by rw [List.head?_map, hf]; rfl
  have hbl := hc _ (List.mem_of_getLast? hb)
  have hlt : W back - W front < 65536 ↔ back - front < 2^16 := by
    rw [← W_sub _ _ h1]
    exact W_lt (back - front) (2^16) (by omega) (by decide)
  unfold flush
  rw [hbm, bind_pure_some, hfm, bind_pure_some, List.length_map]
  by_cases hc2 : back - front < 2^16
  · rw [if_pos hc2] at h
    simp only [Option.bind_eq_some_iff] at h
    obtain ⟨offs, ho, h⟩ := h
    have h := Option.some.inj h
    subst h
    simp only [if_pos (hlt.2 hc2)]
    rw [mapM_some _ (fun k => subOffset (cur.map W) (W front) (32*k)) W (fun k x hk => subOffset_eq cur front (32*k) x hk) _ _ ho, bind_pure_some]
    simp only [encI, List.map_append, List.map_cons, List.map_nil, ofInt_nat]; rfl
  · rw [if_neg hc2] at h
    have h := Option.some.inj h
    subst h
    simp only [if_neg (fun c => hc2 (hlt.1 c))]
    simp only [encI, List.map_append, List.map_cons, List.map_nil, ofInt_neg, List.map_map, vlen, List.length_map]
    rfl

/-- what bounds the local variables -/
structure Small (st : Succinct.Darray.BuildState) : Prop where
  len : st.cur.length < 1024
  lt : ∀ x ∈ st.cur, x < 2^64

theorem pushPos_eq (st st' : Succinct.Darray.BuildState) (pos : Nat) (h : Succinct.Darray.pushPos st pos = some st') (hs : Small st)
    (hp : pos < 2^64) : pushPos (encS st) (W pos) = some (encS st') ∧ Small st' := by
  have hlen := hs.len
  have hall : ∀ x ∈ st.cur ++ [pos], x < 2^64 := by
    intro x hx
    rcases List.mem_append.1 hx with hx | hx
    · exact hs.lt x hx
    · rw [List.mem_singleton.1 hx]; exact hp
  have ecur : (encS st).cur ++ [W pos] = (st.cur ++ [pos]).map W := by rw [List.map_append]; rfl
  have evl : vlen ((st.cur ++ [pos]).map W) = 1024 ↔ (st.cur ++ [pos]).length = 1024 := by
    unfold vlen
    rw [List.length_map]
    exact W_inj _ 1024 (by rw [List.length_append]; simp; omega) (by decide)
  have epos : W st.positions + 1 = W (st.positions + 1) := (W_add _ 1).symm
  unfold Succinct.Darray.pushPos at h
  unfold pushPos
  simp only [ecur, evl]
  simp only [] at h
  by_cases hc : (st.cur ++ [pos]).length = 1024
  · rw [if_pos hc] at h ⊢
    simp only [Option.bind_eq_bind, Option.bind_eq_some_iff] at h
    obtain ⟨inv, hi, h⟩ := h
    have h := Option.some.inj h
    subst h
    rw [show (encS st).inv = encI st.inv from rfl, flush_eq _ _ _ hi hall, bind_pure_some]
    refine ⟨?_, ⟨by simp, by simp⟩⟩
    rw [show (encS st).positions = W st.positions from rfl, epos]; rfl
  · rw [if_neg hc] at h ⊢
    have h := Option.some.inj h
    subst h
    refine ⟨?_, ⟨?_, hall⟩⟩
    · rw [show (encS st).positions = W st.positions from rfl, epos]; rfl
    · rw [List.length_append, List.length_singleton] at hc ⊢; omega

theorem lsb_lt64 {w : Word} {l : Nat} (h : lsb w = some l) : l < 64 := ((lsb_some w l).1 h).1

theorem scanWord_eq (size : Nat) (hsz : size ≤ 2^63) (fuel : Nat) (w : Word) (pos : Nat) (hpos : pos ≤ 2^63)
    (st st' : Succinct.Darray.BuildState) (h : Succinct.Darray.scanWord size fuel w pos st = some st') (hs : Small st) :
    scanWord (W size) fuel w (W pos) (encS st) = some (encS st') ∧ Small st' := by
  induction fuel generalizing w pos st with
  | zero => simp [Succinct.Darray.scanWord] at h
  | succ fuel ih =>
    unfold Succinct.Darray.scanWord at h
    unfold scanWord
    cases hl : lsb w with
    | none =>
      rw [hl] at h
      have h := Option.some.inj h
      subst h; exact ⟨rfl, hs⟩
    | some l =>
      rw [hl] at h
      have hl64 := lsb_lt64 hl
      simp only [] at h ⊢
      have e1 : W pos + BitVec.ofNat 64 l = W (pos + l) := (W_add _ _).symm
      have e2 : W (pos + l) ≥ W size ↔ pos + l ≥ size := W_le _ _ (by omega) (by omega)
      have e3 : W (pos + l) + 1 = W (pos + l + 1) := (W_add _ 1).symm
      rw [e1]
      by_cases hc : pos + l ≥ size
      · rw [if_pos hc] at h
        rw [if_pos (e2.2 hc)]
        have h := Option.some.inj h
        subst h; exact ⟨rfl, hs⟩
      · rw [if_neg hc] at h
        rw [if_neg (fun c => hc (e2.1 c)), e3]
        simp only [Option.bind_eq_bind, Option.bind_eq_some_iff] at h
        obtain ⟨st1, h1, h2⟩ := h
        obtain ⟨k1, k2⟩ := pushPos_eq st st1 (pos + l) h1 hs (by omega)
        rw [k1, bind_pure_some]
        exact ih _ _ (by omega) _ h2 k2

theorem getWord_eq (neg : Bool) (data : List Word) (i : Word) : getWord neg data i = Succinct.Darray.getWord neg data i.toNat := rfl

theorem scan_eq (neg : Bool) (data : List Word) (hd : data.length ≤ 2^57) (size : Nat) (hsz : size ≤ 2^63) (k i : Nat)
    (hk : i + k = data.length) (st st' : Succinct.Darray.BuildState)
    (h : Succinct.Darray.scan neg data size k i st = some st') (hs : Small st) :
    scan neg data (W size) k (W i) (encS st) = some (encS st') ∧ Small st' := by
  induction k generalizing i st with
  | zero =>
    have h := Option.some.inj h
    subst h
    unfold scan
    rw [if_neg (by unfold vlen; rw [W_lt _ _ (by omega) (by omega)]; omega)]
    exact ⟨rfl, hs⟩
  | succ k ih =>
    unfold Succinct.Darray.scan at h
    unfold scan
    rw [if_pos (by unfold vlen; rw [W_lt _ _ (by omega) (by omega)]; omega)]
    simp only [Option.bind_eq_bind, Option.bind_eq_some_iff] at h
    obtain ⟨w, hw, st1, h1, h2⟩ := h
    simp only []
    rw [getWord_eq, W_toNat _ (by omega), hw, bind_pure_some, show (64 : Word) = W 64 from rfl, ← W_mul,
      show (1 : Word) = W 1 from rfl, ← W_add]
    obtain ⟨k1, k2⟩ := scanWord_eq size hsz 65 w (i*64) (by omega) st st1 h1 hs
    rw [k1, bind_pure_some]
    exact ih (i+1) (by omega) st1 h2 k2

theorem build_eq (neg : Bool) (bv : Succinct.BitVector) (hf : BitVector.Fits bv) (d : Succinct.Darray)
    (h : Succinct.Darray.build neg bv = some d) : build neg (BitVector.enc bv) = some (enc d) := by
  have h1 := hf.size; have h2 := hf.len
  unfold Succinct.Darray.build at h
  simp only [Option.bind_eq_bind, Option.bind_eq_some_iff] at h
  obtain ⟨st, hst, h⟩ := h
  obtain ⟨k1, k2⟩ := scan_eq neg bv.bits (by omega) bv.size h1 bv.bits.length 0 (by omega) _ st hst ⟨by simp, by simp⟩
  have hl := k2.len
  have ev : vlen (encS st).cur = 0 ↔ st.cur.length = 0 := by
    show W (st.cur.map W).length = 0 ↔ _
    rw [List.length_map]
    exact W_inj _ 0 (by omega) (by decide)
  have ev' : vlen (encS st).cur ≠ 0 ↔ st.cur.length ≠ 0 := not_congr ev
  unfold build
  have k1' : scan neg (BitVector.enc bv).bits (BitVector.enc bv).size (BitVector.enc bv).bits.length 0 ⟨[], ⟨[], [], []⟩, 0⟩ = some (encS st) := k1
  rw [k1', bind_pure_some]
  by_cases hc : st.cur.length ≠ 0
  · rw [if_pos hc] at h
    rw [if_pos (ev'.2 hc)]
    simp only [Option.bind_eq_some_iff] at h
    obtain ⟨inv, hi, h⟩ := h
    have h := Option.some.inj h
    subst h
    rw [show (encS st).inv = encI st.inv from rfl, show (encS st).cur = st.cur.map W from rfl, flush_eq _ _ _ hi k2.lt, bind_pure_some]; rfl
  · rw [if_neg hc] at h
    rw [if_neg (fun c => hc (ev'.1 c))]
    have h := Option.some.inj h
    subst h
    rfl

/-! ### `select` -/

theorem selectLoop_eq (get : Nat → Option Word) (get' : Word → Option Word) (hg : ∀ i, i < 2^64 → get' (W i) = get i)
    (hb : ∀ i w, get i = some w → i < 2^58) (fuel : Nat) (word : Word) (idx rem : Nat) (hi : idx < 2^58) (hr : rem < 2^64) :
    selectLoop get' fuel word (W idx) (W rem) = (Succinct.Darray.selectLoop get fuel word idx rem).map W := by
  induction fuel generalizing word idx rem with
  | zero => rfl
  | succ fuel ih =>
    unfold selectLoop Succinct.Darray.selectLoop
    have hp := popcount_le word
    have e1 : W rem < W (popcount word) ↔ rem < popcount word := W_lt _ _ hr (by omega)
    simp only [e1]
    by_cases hc : rem < popcount word
    · rw [if_pos hc, if_pos hc, W_toNat _ hr]
      generalize selectInWord word rem = t
      cases t with
      | none => simp only [Option.bind_eq_bind, Option.bind_none, Option.map_none]
      | some s =>
        simp only [bind_pure_some, Option.pure_def, Option.map_some]
        rw [W_add (64*idx) s, W_mul 64 idx, show (64 : Word) = W 64 from rfl]
    · rw [if_neg hc, if_neg hc, show (1 : Word) = W 1 from rfl, ← W_add, hg _ (by omega), ← W_sub _ _ (by omega)]
      cases hget : get (idx + 1) with
      | none => simp only [Option.bind_eq_bind, Option.bind_none, Option.map_none]
      | some w =>
        rw [bind_pure_some, bind_pure_some]
        exact ih w (idx+1) (rem - popcount word) (hb _ _ hget) (by omega)

theorem selectFrom_eq (get : Nat → Option Word) (get' : Word → Option Word) (hg : ∀ i, i < 2^64 → get' (W i) = get i)
    (hb : ∀ i w, get i = some w → i < 2^58) (fuel start rem : Nat) (hi : start < 2^64) (hr : rem < 2^64) :
    selectFrom get' fuel (W start) (W rem) = (Succinct.Darray.selectFrom get fuel start rem).map W := by
  unfold selectFrom Succinct.Darray.selectFrom
  have e0 : W rem = 0 ↔ rem = 0 := W_inj rem 0 hr (by decide)
  simp only [e0]
  by_cases hc : rem = 0
  · rw [if_pos hc, if_pos hc]; rfl
  · rw [if_neg hc, if_neg hc, show (64 : Word) = W 64 from rfl, ← W_div _ _ hi (by decide), hg _ (by omega), modc _ _ (by decide), W_toNat _ hi]
    cases hget : get (start / 64) with
    | none => simp only [Option.bind_eq_bind, Option.bind_none, Option.map_none]
    | some w =>
      rw [bind_pure_some, bind_pure_some]
      generalize shl (BitVec.allOnes 64) (start % 64) = t
      cases t with
      | none => simp only [Option.bind_eq_bind, Option.bind_none, Option.map_none]
      | some m =>
        rw [bind_pure_some, bind_pure_some]
        exact selectLoop_eq get get' hg hb fuel (w &&& m) (start/64) rem (hb _ _ hget) hr

theorem select_eq (neg : Bool) (d : Succinct.Darray) (bv : Succinct.BitVector) (hf : BitVector.Fits bv) (hpos : d.positions < 2^64)
    (hi : Succinct.Darray.FInv d.inv bv.size bv.size) (idx : Word) :
    select neg (enc d) (BitVector.enc bv) idx = (Succinct.Darray.select neg d bv idx.toNat).map W := by
  have h1 := hf.size; have h2 := hf.len
  have hov := hi.ov
  unfold select Succinct.Darray.select
  refine sim_assert (lt_W _ _ hpos) fun _ => ?_
  have eb : at_ (enc d).inv.block (idx / 1024) = (rd d.inv.block (idx.toNat / 1024)).map (BitVec.ofInt 64) := by
    show at_ (d.inv.block.map (BitVec.ofInt 64)) (idx / W 1024) = _
    rw [at_map, divc _ _ (by decide)]
  refine sim_bind eb fun bp hbp => ?_
  obtain ⟨b1, b2⟩ := hi.blk bp (List.mem_of_getElem? hbp)
  have emod : (idx % 1024).toNat = idx.toNat % 1024 := modc idx 1024 (by decide)
  have eint : (BitVec.ofInt 64 bp).toInt = bp := by
    rw [BitVec.toInt_ofInt]
    exact Int.bmod_eq_of_le (by omega) (by omega)
  rw [eint]
  by_cases hneg : bp < 0
  · rw [if_pos hneg, if_pos hneg]
    show at_ (d.inv.overflow.map W) _ = _
    rw [at_map]
    congr 2
    obtain ⟨k, rfl⟩ : ∃ k : Nat, bp = -(k : Int) - 1 := ⟨(-bp - 1).toNat, by omega⟩
    rw [ofInt_neg]
    have : -(-W k - 1) - 1 = W k := by
      apply BitVec.eq_of_toNat_eq
      simp only [BitVec.toNat_sub, BitVec.toNat_neg, BitVec.toNat_ofNat]
      omega
    rw [this, toNat_add_lt _ _ (by rw [emod, W_toNat _ (by omega)]; omega), emod, W_toNat _ (by omega)]
    omega
  · rw [if_neg hneg, if_neg hneg]
    have es : at_ (enc d).inv.subblock (idx / 32) = (rd d.inv.subblock (idx.toNat / 32)).map W := by
      show at_ (d.inv.subblock.map W) (idx / W 32) = _
      rw [at_map, divc _ _ (by decide)]
    refine sim_bind es fun sub hsub => ?_
    have hs16 := hi.subr sub (List.mem_of_getElem? hsub)
    obtain ⟨k, rfl⟩ : ∃ k : Nat, bp = (k : Int) := ⟨bp.toNat, by omega⟩
    have em : idx % 32 = W (idx.toNat % 32) := by
      apply BitVec.eq_of_toNat_eq
      rw [W_toNat _ (by omega)]; exact modc idx 32 (by decide)
    rw [ofInt_nat, ← W_add, em, Int.toNat_natCast]
    refine selectFrom_eq (Succinct.Darray.getWord neg bv.bits) (getWord neg bv.bits) (fun i hi => by rw [getWord_eq, W_toNat _ hi])
      (fun i w h => ?_) _ _ _ (by omega) (by omega)
    unfold Succinct.Darray.getWord at h
    simp only [Option.bind_eq_bind, Option.bind_eq_some_iff] at h
    obtain ⟨x, hx, _⟩ := h
    have := rd_lt hx
    omega

end Darray

namespace Darray64

/-- the objects in memory -/
def encB (b : Succinct.Darray64Builder) : Darray64Builder := ⟨W b.nOnes, Builder.enc b.bits, b.block.map W, b.subblock.map W⟩
def enc (d : Succinct.Darray64) : Darray64 := ⟨W d.numOnes, BitVector.enc d.bits, d.block.map W, d.subblock.map W⟩

theorem append1_eq (b b' : Succinct.Darray64Builder) (k : Nat) (hk : k < 2^64) (hn : b.nOnes < 2^64)
    (h : Succinct.Darray64.append1 b k = some b') : append1 (encB b) (W k) = some (encB b') := by
  unfold Succinct.Darray64.append1 at h
  simp only [Option.bind_eq_bind, Option.bind_eq_some_iff] at h
  obtain ⟨s1, h1, s2, h2, last, h3, h⟩ := h
  obtain ⟨h3', rfl⟩ := Succinct.Darray.subU_eq_some h3
  have e1 : Builder.appendBits (Builder.enc b.bits) 0 (W k) = some (Builder.enc s1) := by
    rw [Builder.appendBits_eq _ _ _ hk, h1]; rfl
  have e2 : Builder.pushBack (Builder.enc s1) true = some (Builder.enc s2) := by rw [Builder.pushBack_eq, h2]; rfl
  have e3 : (Builder.enc s2).size - 1 = W (s2.size - 1) := by rw [W_sub _ _ h3', show (1 : Word) = W 1 from rfl]; rfl
  have m1 : W b.nOnes % 1024 = 0 ↔ b.nOnes % 1024 = 0 := by
    rw [show (1024 : Word) = W 1024 from rfl, W_modc _ _ (by decide) (by decide)]; exact W_inj _ 0 (by omega) (by decide)
  have m2 : W b.nOnes % 64 = 0 ↔ b.nOnes % 64 = 0 := by
    rw [show (64 : Word) = W 64 from rfl, W_modc _ _ (by decide) (by decide)]; exact W_inj _ 0 (by omega) (by decide)
  have eblk : (if (encB b).nOnes % 1024 = 0 then (encB b).block ++ [W (s2.size - 1)] else (encB b).block) =
      (if b.nOnes % 1024 = 0 then b.block ++ [s2.size - 1] else b.block).map W := by
    show (if W b.nOnes % 1024 = 0 then b.block.map W ++ [W (s2.size - 1)] else b.block.map W) = _
    by_cases hc : b.nOnes % 1024 = 0
    · rw [if_pos hc, if_pos (m1.2 hc), List.map_append]; rfl
    · rw [if_neg hc, if_neg (fun c => hc (m1.1 c))]
  unfold append1
  rw [show (encB b).bits = Builder.enc b.bits from rfl, e1, bind_pure_some, e2, bind_pure_some]
  simp only [e3, eblk]
  generalize (if b.nOnes % 1024 = 0 then b.block ++ [s2.size - 1] else b.block) = blk at h ⊢
  have hn1 : (encB b).nOnes + 1 = W (b.nOnes + 1) := (W_add _ 1).symm
  by_cases hc : b.nOnes % 64 = 0
  · rw [if_pos hc] at h
    simp only [Option.bind_eq_some_iff] at h
    obtain ⟨base, h4, d, h5, sb, h6, h⟩ := h
    obtain ⟨h5', rfl⟩ := Succinct.Darray.subU_eq_some h5
    obtain rfl := Option.some.inj h6
    obtain rfl := Option.some.inj h
    have es : subblocks (encB b) (blk.map W) (W (s2.size - 1)) = some ((b.subblock ++ [(s2.size - 1 - base) % 2^16]).map W) := by
      unfold subblocks
      have ei : (W b.nOnes / 1024).toNat = b.nOnes / 1024 := by rw [show (1024 : Word) = W 1024 from rfl, divc _ _ (by decide), W_toNat _ hn]
      rw [show (encB b).nOnes = W b.nOnes from rfl, if_pos (m2.2 hc), at_map, ei, h4, Option.map_some, bind_pure_some, ← W_sub _ _ h5',
        show (65536 : Word) = W (2^16) from rfl, W_modc _ _ (by decide) (by decide), List.map_append]
      rfl
    rw [es, bind_pure_some, hn1]; rfl
  · rw [if_neg hc] at h
    obtain rfl := Option.some.inj h
    have es : subblocks (encB b) (blk.map W) (W (s2.size - 1)) = some (b.subblock.map W) := by
      unfold subblocks
      rw [show (encB b).nOnes = W b.nOnes from rfl, if_neg (fun c => hc (m2.1 c))]; rfl
    rw [es, bind_pure_some, hn1]; rfl

theorem fold_eq (ks : List Nat) : ∀ (b : Succinct.Darray64Builder) (js : List Nat), Succinct.Darray64.Good b js → (∀ k ∈ ks, k ≤ 64) → (∀ k ∈ js, k ≤ 64) →
    js.length + ks.length < 2^64 →
    ∃ b', ks.foldlM Succinct.Darray64.append1 b = some b' ∧ Succinct.Darray64.Good b' (js ++ ks) ∧
      (ks.map W).foldlM append1 (encB b) = some (encB b') := by
  induction ks with
  | nil => intro b js h _ _ _; exact ⟨b, rfl, by simpa using h, rfl⟩
  | cons k ks ih =>
    intro b js h hk hj hl
    rw [List.length_cons] at hl
    have hk64 := hk k (by simp)
    obtain ⟨b1, e1, g1⟩ := Succinct.Darray64.append1_good b js k h hk64 hj
    have hn := h.n
    have m1 := append1_eq b b1 k (by omega) (by omega) e1
    obtain ⟨b2, e2, g2, m2⟩ := ih b1 (js ++ [k]) g1 (fun x hx => hk x (by simp [hx])) (by
      intro x hx
      rcases List.mem_append.1 hx with hx | hx
      · exact hj x hx
      · rw [List.mem_singleton.1 hx]; exact hk64) (by simp; omega)
    refine ⟨b2, ?_, by simpa using g2, ?_⟩
    · rw [List.foldlM_cons, e1, bind_pure_some, e2]
    · rw [List.map_cons, List.foldlM_cons, m1, bind_pure_some, m2]

theorem select_eq (d : Succinct.Darray64) (hf : BitVector.Fits d.bits) (hn : d.numOnes < 2^64) (hb : ∀ x ∈ d.block, x < 2^63)
    (hs : ∀ x ∈ d.subblock, x < 2^63) (idx : Word) : select (enc d) idx = (d.select idx.toNat).map W := by
  have h1 := hf.size; have h2 := hf.len
  unfold select Succinct.Darray64.select
  refine sim_assert (lt_W _ _ hn) fun _ => ?_
  have eb : at_ (enc d).block (idx / 1024) = (rd d.block (idx.toNat / 1024)).map W := by
    show at_ (d.block.map W) (idx / W 1024) = _
    rw [at_map, divc _ _ (by decide)]
  have es : at_ (enc d).subblock (idx / 64) = (rd d.subblock (idx.toNat / 64)).map W := by
    show at_ (d.subblock.map W) (idx / W 64) = _
    rw [at_map, divc _ _ (by decide)]
  refine sim_bind eb fun bp hbp => ?_
  refine sim_bind es fun sub hsub => ?_
  have b1 := hb bp (List.mem_of_getElem? hbp)
  have b2 := hs sub (List.mem_of_getElem? hsub)
  have em : idx % 64 = W (idx.toNat % 64) := by
    apply BitVec.eq_of_toNat_eq
    rw [W_toNat _ (by omega)]; exact modc idx 64 (by decide)
  rw [← W_add, em]
  refine Darray.selectFrom_eq (rd d.bits.bits) (at_ d.bits.bits) (fun i hi => by unfold at_; rw [W_toNat _ hi])
    (fun i w h => ?_) _ _ _ (by omega) (by omega)
  have := rd_lt h
  omega

end Darray64
end Machine
end Succinct
