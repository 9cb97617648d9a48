import Verif.Model.Walk
import Verif.Props.EliasFano
import Verif.Lemmas.SpaceEF
import Verif.Lemmas.Darray

/-! # Counting copies: forgetting the counter, and the value of the counter -/
namespace Succinct
open Spec Broadword
open RSBitVector (bind_pure_some)

namespace BitVector

theorem predLoopC_fst (neg : Bool) (bits : List Word) (block : Nat) (word : Word) :
    (predLoopC neg bits block word).map Prod.fst = predLoop neg bits block word := by
  induction block generalizing word with
  | zero => unfold predLoopC predLoop; cases msb word <;> rfl
  | succ block ih =>
    unfold predLoopC predLoop
    cases msb word with
    | some r => rfl
    | none =>
      simp only []
      cases rd bits block with
      | none => rfl
      | some w =>
        rw [bind_pure_some, bind_pure_some, ← ih]
        cases predLoopC neg bits block (if neg then ~~~w else w) <;> rfl

theorem predLoopC_count (neg : Bool) (bits : List Word) (block : Nat) (word : Word) (p c : Nat)
    (h : predLoopC neg bits block word = some (p, c)) : p / 64 + c = block := by
  induction block generalizing word p c with
  | zero =>
    unfold predLoopC at h
    cases hm : msb word with
    | some r =>
      rw [hm] at h; simp only [Option.some.injEq, Prod.mk.injEq] at h
      have := ((msb_some _ _).1 hm).1; omega
    | none => rw [hm] at h; exact absurd h (by simp)
  | succ block ih =>
    unfold predLoopC at h
    cases hm : msb word with
    | some r =>
      rw [hm] at h; simp only [Option.some.injEq, Prod.mk.injEq] at h
      have := ((msb_some _ _).1 hm).1; omega
    | none =>
      rw [hm] at h
      simp only [] at h
      cases hw : rd bits block with
      | none => rw [hw] at h; exact absurd h (by simp)
      | some w =>
        rw [hw, bind_pure_some] at h
        cases hr : predLoopC neg bits block (if neg then ~~~w else w) with
        | none => rw [hr] at h; exact absurd h (by simp)
        | some q =>
          obtain ⟨p', c'⟩ := q
          rw [hr, bind_pure_some] at h
          have h' : (p', c' + 1) = (p, c) := Option.some.inj h
          simp only [Prod.mk.injEq] at h'
          have := ih _ _ _ hr
          omega

theorem predecessorC_fst (neg : Bool) (v : BitVector) (pos : Nat) :
    (predecessorC neg v pos).map Prod.fst = predecessor neg v pos := by
  unfold predecessorC predecessor
  cases assertP (pos < v.size) with
  | none => rfl
  | some _ =>
    rw [bind_pure_some, bind_pure_some]; try simp only []
    cases rd v.bits (pos / 64) with
    | none => rfl
    | some w =>
      rw [bind_pure_some, bind_pure_some]; try simp only []
      cases shl (if neg then ~~~w else w) (64 - pos % 64 - 1) with
      | none => rfl
      | some w1 =>
        rw [bind_pure_some, bind_pure_some]
        cases shr w1 (64 - pos % 64 - 1) with
        | none => rfl
        | some w2 =>
          rw [bind_pure_some, bind_pure_some, ← predLoopC_fst]
          cases predLoopC neg v.bits (pos / 64) w2 <;> rfl

theorem predecessorC_count (neg : Bool) (v : BitVector) (pos p c : Nat) (h : predecessorC neg v pos = some (p, c)) :
    p / 64 + c = pos / 64 + 1 := by
  unfold predecessorC at h
  simp only [Option.bind_eq_bind, Option.bind_eq_some_iff] at h
  obtain ⟨_, _, w, _, w1, _, w2, _, ⟨p', c'⟩, hr, h⟩ := h
  have h' : (p', c' + 1) = (p, c) := Option.some.inj h
  simp only [Prod.mk.injEq] at h'
  have := predLoopC_count _ _ _ _ _ _ hr
  omega

theorem succLoopC_fst (neg : Bool) (rest : List Word) (block : Nat) (word : Word) :
    (succLoopC neg rest block word).map Prod.fst = succLoop neg rest block word := by
  induction rest generalizing block word with
  | nil => unfold succLoopC succLoop; cases lsb word <;> rfl
  | cons w rest ih =>
    unfold succLoopC succLoop
    cases lsb word with
    | some r => rfl
    | none =>
      simp only []
      rw [← ih]
      cases succLoopC neg rest (block + 1) (if neg then ~~~w else w) <;> rfl

theorem succLoopC_count (neg : Bool) (rest : List Word) (block : Nat) (word : Word) (p c : Nat)
    (h : succLoopC neg rest block word = some (p, c)) : p / 64 = block + c := by
  induction rest generalizing block word p c with
  | nil =>
    unfold succLoopC at h
    cases hm : lsb word with
    | some r =>
      rw [hm] at h; simp only [Option.some.injEq, Prod.mk.injEq] at h
      have := ((lsb_some _ _).1 hm).1; omega
    | none => rw [hm] at h; exact absurd h (by simp)
  | cons w rest ih =>
    unfold succLoopC at h
    cases hm : lsb word with
    | some r =>
      rw [hm] at h; simp only [Option.some.injEq, Prod.mk.injEq] at h
      have := ((lsb_some _ _).1 hm).1; omega
    | none =>
      rw [hm] at h
      simp only [] at h
      cases hr : succLoopC neg rest (block + 1) (if neg then ~~~w else w) with
      | none => rw [hr] at h; exact absurd h (by simp)
      | some q =>
        obtain ⟨p', c'⟩ := q
        rw [hr, bind_pure_some] at h
        have h' : (p', c' + 1) = (p, c) := Option.some.inj h
        simp only [Prod.mk.injEq] at h'
        have := ih _ _ _ _ hr
        omega

theorem successorC_fst (neg : Bool) (v : BitVector) (pos : Nat) :
    (successorC neg v pos).map Prod.fst = successor neg v pos := by
  unfold successorC successor
  cases assertP (pos < v.size) with
  | none => rfl
  | some _ =>
    rw [bind_pure_some, bind_pure_some]; try simp only []
    cases rd v.bits (pos / 64) with
    | none => rfl
    | some w =>
      rw [bind_pure_some, bind_pure_some]
      cases shr (if neg then ~~~w else w) (pos % 64) with
      | none => rfl
      | some w1 =>
        rw [bind_pure_some, bind_pure_some]
        cases shl w1 (pos % 64) with
        | none => rfl
        | some w2 =>
          rw [bind_pure_some, bind_pure_some, ← succLoopC_fst]
          cases succLoopC neg (v.bits.drop (pos / 64 + 1)) (pos / 64) w2 <;> rfl

theorem successorC_count (neg : Bool) (v : BitVector) (pos p c : Nat) (h : successorC neg v pos = some (p, c)) :
    p / 64 + 1 = pos / 64 + c := by
  unfold successorC at h
  simp only [Option.bind_eq_bind, Option.bind_eq_some_iff] at h
  obtain ⟨_, _, w, _, w1, _, w2, _, ⟨p', c'⟩, hr, h⟩ := h
  have h' : (p', c' + 1) = (p, c) := Option.some.inj h
  simp only [Prod.mk.injEq] at h'
  have := succLoopC_count _ _ _ _ _ _ hr
  omega

/-- a search that succeeds comes with its counter -/
theorem of_fst {α β : Type} {x : Option (α × β)} {y : Option α} (h : x.map Prod.fst = y) {a : α} (hy : y = some a) :
    ∃ c, x = some (a, c) := by
  cases x with
  | none => rw [hy] at h; exact absurd h (by simp)
  | some q =>
    obtain ⟨a', c⟩ := q
    rw [hy] at h
    have : a' = a := Option.some.inj h
    exact ⟨c, by rw [this]⟩

end BitVector

namespace Darray

theorem pushPos_positions {st st' : BuildState} {p : Nat} (h : pushPos st p = some st') : st'.positions = st.positions + 1 := by
  unfold pushPos at h
  simp only [] at h
  by_cases hc : (st.cur ++ [p]).length = 1024
  · rw [if_pos hc] at h
    cases hf : flush (st.cur ++ [p]) st.inv with
    | none => rw [hf] at h; exact absurd h (by simp)
    | some inv => rw [hf, bind_pure_some] at h; rw [← Option.some.inj h]
  · rw [if_neg hc] at h; rw [← Option.some.inj h]

theorem scanWordC_fst (size fuel : Nat) (w : Word) (pos : Nat) (st : BuildState) :
    (scanWordC size fuel w pos st).map Prod.fst = scanWord size fuel w pos st := by
  induction fuel generalizing w pos st with
  | zero => rfl
  | succ fuel ih =>
    unfold scanWordC scanWord
    cases lsb w with
    | none => rfl
    | some l =>
      simp only []
      by_cases hp : pos + l ≥ size
      · rw [if_pos hp, if_pos hp]; rfl
      · rw [if_neg hp, if_neg hp]
        cases pushPos st (pos + l) with
        | none => rfl
        | some st1 =>
          rw [bind_pure_some, bind_pure_some, ← ih]
          cases scanWordC size fuel ((w >>> l) >>> 1) (pos + l + 1) st1 <;> rfl

theorem scanWordC_count (size fuel : Nat) (w : Word) (pos : Nat) (st st' : BuildState) (c : Nat)
    (h : scanWordC size fuel w pos st = some (st', c)) : st.positions + c = st'.positions + 1 := by
  induction fuel generalizing w pos st c with
  | zero => exact absurd h (by simp [scanWordC])
  | succ fuel ih =>
    unfold scanWordC at h
    cases hl : lsb w with
    | none =>
      rw [hl] at h; simp only [Option.some.injEq, Prod.mk.injEq] at h
      rw [← h.1, ← h.2]
    | some l =>
      rw [hl] at h
      simp only [] at h
      by_cases hp : pos + l ≥ size
      · rw [if_pos hp] at h; simp only [Option.some.injEq, Prod.mk.injEq] at h
        rw [← h.1, ← h.2]
      · rw [if_neg hp] at h
        cases hq : pushPos st (pos + l) with
        | none => rw [hq] at h; exact absurd h (by simp)
        | some st1 =>
          rw [hq, bind_pure_some] at h
          cases hr : scanWordC size fuel ((w >>> l) >>> 1) (pos + l + 1) st1 with
          | none => rw [hr] at h; exact absurd h (by simp)
          | some q =>
            obtain ⟨st2, c'⟩ := q
            rw [hr, bind_pure_some] at h
            have h' : (st2, c' + 1) = (st', c) := Option.some.inj h
            simp only [Prod.mk.injEq] at h'
            have h1 := ih _ _ _ _ (h'.1 ▸ hr)
            have h2 := pushPos_positions hq
            omega

theorem scanC_fst (neg : Bool) (data : List Word) (size k i : Nat) (st : BuildState) :
    (scanC neg data size k i st).map Prod.fst = scan neg data size k i st := by
  induction k generalizing i st with
  | zero => rfl
  | succ k ih =>
    unfold scanC scan
    cases getWord neg data i with
    | none => rfl
    | some w =>
      rw [bind_pure_some, bind_pure_some, ← scanWordC_fst]
      cases scanWordC size 65 w (i * 64) st with
      | none => rfl
      | some q =>
        obtain ⟨st1, c⟩ := q
        rw [bind_pure_some]
        show _ = scan neg data size k (i+1) st1
        rw [← ih]
        simp only []
        cases scanC neg data size k (i+1) st1 <;> rfl

theorem scanC_count (neg : Bool) (data : List Word) (size k i : Nat) (st st' : BuildState) (c : Nat)
    (h : scanC neg data size k i st = some (st', c)) : st.positions + c = st'.positions + k := by
  induction k generalizing i st c with
  | zero =>
    have h' : (st, 0) = (st', c) := Option.some.inj h
    simp only [Prod.mk.injEq] at h'
    rw [← h'.1, ← h'.2]
  | succ k ih =>
    unfold scanC at h
    cases hw : getWord neg data i with
    | none => rw [hw] at h; exact absurd h (by simp)
    | some w =>
      rw [hw, bind_pure_some] at h
      cases hq : scanWordC size 65 w (i * 64) st with
      | none => rw [hq] at h; exact absurd h (by simp)
      | some q =>
        obtain ⟨st1, c1⟩ := q
        rw [hq, bind_pure_some] at h
        simp only [] at h
        cases hr : scanC neg data size k (i+1) st1 with
        | none => rw [hr] at h; exact absurd h (by simp)
        | some q =>
          obtain ⟨st2, c2⟩ := q
          rw [hr, bind_pure_some] at h
          have h' : (st2, c1 + c2) = (st', c) := Option.some.inj h
          simp only [Prod.mk.injEq] at h'
          have h1 := ih _ _ _ (h'.1 ▸ hr)
          have h2 := scanWordC_count _ _ _ _ _ _ _ hq
          omega

theorem buildC_fst (neg : Bool) (bv : BitVector) : (buildC neg bv).map Prod.fst = build neg bv := by
  unfold buildC build
  rw [← scanC_fst]
  cases scanC neg bv.bits bv.size bv.bits.length 0 ⟨[], ⟨[], [], []⟩, 0⟩ with
  | none => rfl
  | some q =>
    obtain ⟨st, c⟩ := q
    rw [bind_pure_some]
    simp only [Option.map_some]
    rw [bind_pure_some]
    by_cases hc : st.cur.length ≠ 0
    · rw [if_pos hc, if_pos hc]; cases flush st.cur st.inv <;> rfl
    · rw [if_neg hc, if_neg hc]; rfl

theorem buildC_count (neg : Bool) (bv : BitVector) (d : Darray) (c : Nat) (h : buildC neg bv = some (d, c)) :
    c = bv.bits.length + d.positions := by
  unfold buildC at h
  cases hq : scanC neg bv.bits bv.size bv.bits.length 0 ⟨[], ⟨[], [], []⟩, 0⟩ with
  | none => rw [hq] at h; exact absurd h (by simp)
  | some q =>
    obtain ⟨st, c1⟩ := q
    rw [hq, bind_pure_some] at h
    simp only [] at h
    have h1 := scanC_count _ _ _ _ _ _ _ _ hq
    simp only [] at h1
    by_cases hc : st.cur.length ≠ 0
    · rw [if_pos hc] at h
      cases hf : flush st.cur st.inv with
      | none => rw [hf] at h; exact absurd h (by simp)
      | some inv =>
        rw [hf, bind_pure_some] at h
        have h' : (Darray.mk st.positions inv, c1) = (d, c) := Option.some.inj h
        simp only [Prod.mk.injEq] at h'
        rw [← h'.1, ← h'.2]; show c1 = _ + st.positions; omega
    · rw [if_neg hc] at h
      have h' : (Darray.mk st.positions st.inv, c1) = (d, c) := Option.some.inj h
      simp only [Prod.mk.injEq] at h'
      rw [← h'.1, ← h'.2]; show c1 = _ + st.positions; omega

end Darray

namespace EliasFano

theorem fillLoopC_fst (bv : BitVector) (k i : Nat) (b : EFBuilder) : (fillLoopC bv k i b).map Prod.fst = fillLoop bv k i b := by
  induction k generalizing i b with
  | zero => rfl
  | succ k ih =>
    unfold fillLoopC fillLoop
    rw [← BitVector.successorC_fst]
    cases bv.successorC false i with
    | none => rfl
    | some q =>
      obtain ⟨p, c⟩ := q
      rw [bind_pure_some]
      simp only [Option.map_some]
      rw [bind_pure_some]
      cases b.pushBack (BitVec.ofNat 64 p) with
      | none => rfl
      | some b1 =>
        rw [bind_pure_some, bind_pure_some, ← ih]
        cases fillLoopC bv k (p + 1) b1 <;> rfl

theorem succ_lt_words {bv : BitVector} {i p : Nat} (h : bv.successor false i = some p) :
    p < 64 * bv.bits.length := by
  unfold BitVector.successor at h
  simp only [Option.bind_eq_bind, Option.bind_eq_some_iff] at h
  obtain ⟨_, _, w, hw, w1, _, w2, _, h⟩ := h
  have hb : i / 64 < bv.bits.length := by
    rcases Nat.lt_or_ge (i/64) bv.bits.length with a | a
    · exact a
    · unfold rd at hw; rw [List.getElem?_eq_none a] at hw; exact absurd hw (by simp)
  have key : ∀ (rest : List Word) (block : Nat) (w : Word) (p : Nat), BitVector.succLoop false rest block w = some p →
      p < 64 * (block + rest.length + 1) := by
    intro rest
    induction rest with
    | nil =>
      intro block w p h
      unfold BitVector.succLoop at h
      cases hm : lsb w with
      | some r =>
        rw [hm] at h; have := ((lsb_some _ _).1 hm).1
        have : block * 64 + r = p := Option.some.inj h
        simp only [List.length_nil]; omega
      | none => rw [hm] at h; exact absurd h (by simp)
    | cons w' rest ih =>
      intro block w p h
      unfold BitVector.succLoop at h
      cases hm : lsb w with
      | some r =>
        rw [hm] at h; have := ((lsb_some _ _).1 hm).1
        have : block * 64 + r = p := Option.some.inj h
        simp only [List.length_cons]; omega
      | none =>
        rw [hm] at h
        have := ih _ _ _ h
        simp only [List.length_cons]; omega
  have := key _ _ _ _ h
  rw [List.length_drop] at this
  omega

theorem fillLoopC_count (bv : BitVector) (k i : Nat) (b b' : EFBuilder) (c : Nat) (h : fillLoopC bv k i b = some (b', c))
    (hi : i ≤ 64 * bv.bits.length) : i / 64 + c ≤ bv.bits.length + k := by
  induction k generalizing i b c with
  | zero =>
    have h' : (b, 0) = (b', c) := Option.some.inj h
    simp only [Prod.mk.injEq] at h'
    omega
  | succ k ih =>
    unfold fillLoopC at h
    cases hs : bv.successorC false i with
    | none => rw [hs] at h; exact absurd h (by simp)
    | some q =>
      obtain ⟨p, c1⟩ := q
      rw [hs, bind_pure_some] at h
      simp only [] at h
      cases hb : b.pushBack (BitVec.ofNat 64 p) with
      | none => rw [hb] at h; exact absurd h (by simp)
      | some b1 =>
        rw [hb, bind_pure_some] at h
        cases hr : fillLoopC bv k (p + 1) b1 with
        | none => rw [hr] at h; exact absurd h (by simp)
        | some q =>
          obtain ⟨b2, c2⟩ := q
          rw [hr, bind_pure_some] at h
          have h' : (b2, c1 + c2) = (b', c) := Option.some.inj h
          simp only [Prod.mk.injEq] at h'
          have hp : bv.successor false i = some p := by rw [← BitVector.successorC_fst, hs]; rfl
          have h0 := succ_lt_words hp
          have h1 := BitVector.successorC_count _ _ _ _ _ hs
          have h2 := ih _ _ _ (h'.1 ▸ hr) (by omega)
          omega

theorem ofBitmapC_fst (b : Builder) (wr : Bool) : (ofBitmapC b wr).map Prod.fst = ofBitmap b wr := by
  unfold ofBitmapC ofBitmap
  cases BitVector.ofBuilder b with
  | none => rfl
  | some bv =>
    rw [bind_pure_some, bind_pure_some]
    simp only []
    cases EFBuilder.new (BitVec.ofNat 64 bv.size) (bv.bits.map popcount).sum with
    | none => rfl
    | some b0 =>
      rw [bind_pure_some, bind_pure_some, ← fillLoopC_fst]
      cases fillLoopC bv (bv.bits.map popcount).sum 0 b0 with
      | none => rfl
      | some q =>
        obtain ⟨b1, c⟩ := q
        rw [bind_pure_some]
        simp only [Option.map_some]
        rw [bind_pure_some]
        cases build b1 wr <;> rfl

variable (ov : Word → Nat → Word)

theorem accessLoopC_fst (ef : EliasFano) (lpos : Word) (h r : Nat) :
    (accessLoopC ov ef lpos h r).map Prod.fst = accessLoop ov ef lpos h r := by
  induction h generalizing r with
  | zero => rfl
  | succ h ih =>
    unfold accessLoopC accessLoop
    cases ef.high.access h with
    | none => rfl
    | some b =>
      rw [bind_pure_some, bind_pure_some]
      cases b with
      | false => rfl
      | true =>
        rw [if_pos rfl, if_pos rfl]
        cases subU r 1 with
        | none => rfl
        | some r1 =>
          rw [bind_pure_some, bind_pure_some]
          cases getLow ov ef r1 with
          | none => rfl
          | some low =>
            rw [bind_pure_some, bind_pure_some]
            by_cases h1 : low = lpos
            · rw [if_pos h1, if_pos h1]; rfl
            · rw [if_neg h1, if_neg h1]
              by_cases h2 : low < lpos
              · rw [if_pos h2, if_pos h2]; rfl
              · rw [if_neg h2, if_neg h2, ← ih]
                cases accessLoopC ov ef lpos h r1 <;> rfl

theorem rankLoopC_fst (ef : EliasFano) (lpos : Word) (h r : Nat) :
    (rankLoopC ov ef lpos h r).map Prod.fst = rankLoop ov ef lpos h r := by
  induction h generalizing r with
  | zero => rfl
  | succ h ih =>
    unfold rankLoopC rankLoop
    cases ef.high.access h with
    | none => rfl
    | some b =>
      rw [bind_pure_some, bind_pure_some]
      cases b with
      | false => rfl
      | true =>
        rw [if_pos rfl, if_pos rfl]
        cases subU r 1 with
        | none => rfl
        | some r1 =>
          rw [bind_pure_some, bind_pure_some]
          cases getLow ov ef r1 with
          | none => rfl
          | some low =>
            rw [bind_pure_some, bind_pure_some]
            by_cases h1 : lpos ≤ low
            · rw [if_pos h1, if_pos h1, ← ih]
              cases rankLoopC ov ef lpos h r1 <;> rfl
            · rw [if_neg h1, if_neg h1]; rfl

theorem accessC_fst (ef : EliasFano) (pos : Word) : (accessC ov ef pos).map Prod.fst = access ov ef pos := by
  unfold accessC access
  cases assertP (pos < ef.size) with
  | none => rfl
  | some _ =>
    rw [bind_pure_some, bind_pure_some]
    cases assertP (ef.d0.positions ≠ 0) with
    | none => rfl
    | some _ =>
      rw [bind_pure_some, bind_pure_some]
      cases shr pos ef.l with
      | none => rfl
      | some hr =>
        rw [bind_pure_some, bind_pure_some]
        cases ef.d0.select true ef.high hr.toNat with
        | none => rfl
        | some hp =>
          rw [bind_pure_some, bind_pure_some]
          cases subU hp hr.toNat with
          | none => rfl
          | some r =>
            rw [bind_pure_some, bind_pure_some]
            cases EFBuilder.lowMask ef.l with
            | none => rfl
            | some mask => rw [bind_pure_some, bind_pure_some, accessLoopC_fst]

theorem rankC_fst (ef : EliasFano) (pos : Word) : (rankC ov ef pos).map Prod.fst = rank ov ef pos := by
  unfold rankC rank
  cases assertP (pos ≤ ef.size) with
  | none => rfl
  | some _ =>
    rw [bind_pure_some, bind_pure_some]
    cases assertP (ef.d0.positions ≠ 0) with
    | none => rfl
    | some _ =>
      rw [bind_pure_some, bind_pure_some]
      by_cases hs : pos = ef.size
      · rw [if_pos hs, if_pos hs]; rfl
      · rw [if_neg hs, if_neg hs]
        cases shr pos ef.l with
        | none => rfl
        | some hr =>
          rw [bind_pure_some, bind_pure_some]
          cases ef.d0.select true ef.high hr.toNat with
          | none => rfl
          | some hp =>
            rw [bind_pure_some, bind_pure_some]
            cases subU hp hr.toNat with
            | none => rfl
            | some r =>
              rw [bind_pure_some, bind_pure_some]
              cases EFBuilder.lowMask ef.l with
              | none => rfl
              | some mask => rw [bind_pure_some, bind_pure_some, rankLoopC_fst]

variable {ef : EliasFano} {n : Word} {xs : List Word} {hb : List Bool}

/-- `y` and `pos` differ at most in their `ef.l` lowest bits -/
def sameHigh (l : Nat) (pos y : Word) : Bool := decide (y.toNat / 2^l = pos.toNat / 2^l)

theorem take_countP_succ (P : Word → Bool) (xs : List Word) (r : Nat) (h1 : 1 ≤ r) (h : r - 1 < xs.length) (hP : P xs[r-1] = true) :
    (xs.take r).countP P = (xs.take (r-1)).countP P + 1 := by
  have e : xs.take r = xs.take (r-1) ++ [xs[r-1]] := by
    have := List.take_append_getElem h
    rw [this, show r - 1 + 1 = r by omega]
  rw [e, List.countP_append]
  simp [hP]

theorem rankLoopC_count (h : Good ef n xs hb) (pos lpos : Word) (q r : Nat) (hq : q ≤ hb.length)
    (hc : cnt (bitFn hb) q = r) (hh : pos.toNat / 2^ef.l + r = q) (r' c : Nat)
    (e : rankLoopC ov ef lpos q r = some (r', c)) :
    c ≤ (xs.take r).countP (sameHigh ef.l pos) ∧ r ≤ r' + c ∧ r' + c ≤ r + 1 := by
  induction q generalizing r r' c with
  | zero =>
    have e' : (r, 0) = (r', c) := Option.some.inj e
    simp only [Prod.mk.injEq] at e'
    omega
  | succ q ih =>
    unfold rankLoopC at e
    rw [BitVector.access_eq h.highRep q (by omega), bind_pure_some] at e
    cases hf : bitFn hb q with
    | false =>
      rw [hf, if_neg (by simp)] at e
      have e' : (r, 0) = (r', c) := Option.some.inj e
      simp only [Prod.mk.injEq] at e'
      omega
    | true =>
      obtain ⟨a, b, c0, d⟩ := at_one h q r (by omega) hf hc
      rw [hf, if_pos rfl, subU_eq _ _ b, bind_pure_some, getLow_eq ov h _ a, bind_pure_some] at e
      have ht := take_countP_succ (sameHigh ef.l pos) xs r b a (by unfold sameHigh; rw [decide_eq_true_iff]; omega)
      by_cases hle : lpos ≤ xs[r-1] &&& maskW ef.l
      · rw [if_pos hle] at e
        cases hr : rankLoopC ov ef lpos q (r-1) with
        | none => rw [hr] at e; exact absurd e (by simp)
        | some z =>
          obtain ⟨r1, c1⟩ := z
          rw [hr, bind_pure_some] at e
          have e' : (r1, c1 + 1) = (r', c) := Option.some.inj e
          simp only [Prod.mk.injEq] at e'
          have := ih (r-1) (by omega) c0 (by omega) _ _ hr
          omega
      · rw [if_neg hle] at e
        have e' : (r, 1) = (r', c) := Option.some.inj e
        simp only [Prod.mk.injEq] at e'
        omega

theorem accessLoopC_count (h : Good ef n xs hb) (pos lpos : Word) (q r : Nat) (hq : q ≤ hb.length)
    (hc : cnt (bitFn hb) q = r) (hh : pos.toNat / 2^ef.l + r = q) (x : Bool) (c : Nat)
    (e : accessLoopC ov ef lpos q r = some (x, c)) :
    c ≤ (xs.take r).countP (sameHigh ef.l pos) := by
  induction q generalizing r c with
  | zero =>
    have e' : (false, 0) = (x, c) := Option.some.inj e
    simp only [Prod.mk.injEq] at e'
    omega
  | succ q ih =>
    unfold accessLoopC at e
    rw [BitVector.access_eq h.highRep q (by omega), bind_pure_some] at e
    cases hf : bitFn hb q with
    | false =>
      rw [hf, if_neg (by simp)] at e
      have e' : (false, 0) = (x, c) := Option.some.inj e
      simp only [Prod.mk.injEq] at e'
      omega
    | true =>
      obtain ⟨a, b, c0, d⟩ := at_one h q r (by omega) hf hc
      rw [hf, if_pos rfl, subU_eq _ _ b, bind_pure_some, getLow_eq ov h _ a, bind_pure_some] at e
      have ht := take_countP_succ (sameHigh ef.l pos) xs r b a (by unfold sameHigh; rw [decide_eq_true_iff]; omega)
      by_cases he : xs[r-1] &&& maskW ef.l = lpos
      · rw [if_pos he] at e
        have e' : (true, 1) = (x, c) := Option.some.inj e
        simp only [Prod.mk.injEq] at e'
        omega
      · rw [if_neg he] at e
        by_cases hle : xs[r-1] &&& maskW ef.l < lpos
        · rw [if_pos hle] at e
          have e' : (false, 1) = (x, c) := Option.some.inj e
          simp only [Prod.mk.injEq] at e'
          omega
        · rw [if_neg hle] at e
          cases hr : accessLoopC ov ef lpos q (r-1) with
          | none => rw [hr] at e; exact absurd e (by simp)
          | some z =>
            obtain ⟨x1, c1⟩ := z
            rw [hr, bind_pure_some] at e
            have e' : (x1, c1 + 1) = (x, c) := Option.some.inj e
            simp only [Prod.mk.injEq] at e'
            have := ih (r-1) (by omega) c0 (by omega) _ (e'.1 ▸ hr)
            omega

theorem take_countP_le (P : Word → Bool) (xs : List Word) (r : Nat) : (xs.take r).countP P ≤ xs.countP P :=
  (List.take_sublist r xs).countP_le

/-- low parts read by `rank` -/
theorem rankC_count (h : Good ef n xs hb) (hr : Rank ef hb) (pos : Word) (hp : pos < n) :
    ∃ c, rankC ov ef pos = some (xs.countP (· < pos), c) ∧ c ≤ xs.countP (sameHigh ef.l pos) ∧
      xs.countP (fun y => sameHigh ef.l pos y && decide (pos ≤ y)) ≤ c ∧
      c ≤ xs.countP (fun y => sameHigh ef.l pos y && decide (pos ≤ y)) + 1 := by
  obtain ⟨c, e⟩ := BitVector.of_fst (rankC_fst ov ef pos) (rank_countP ov h hr pos hp)
  refine ⟨c, e, ?_⟩
  have hlt := BitVec.lt_def.1 hp
  obtain ⟨p, p1, p2, p3, p4, p5⟩ := bucket h hr pos (BitVec.le_def.2 (by omega))
  have hle : pos ≤ n := BitVec.le_def.2 (by omega)
  have hne : pos ≠ n := by intro e; rw [e] at hlt; omega
  unfold rankC at e
  rw [h.size, assertP_eq _ hle, bind_pure_some, assertP_eq _ hr.pos, bind_pure_some, if_neg hne, shr_eq _ _ h.lb,
    bind_pure_some, shr_toNat, p1, bind_pure_some, subU_eq _ _ (by omega), bind_pure_some, lowMask_eq _ h.lb, bind_pure_some] at e
  obtain ⟨c1, c2, c3⟩ := rankLoopC_count ov h pos _ p _ (by omega) (by omega) (by omega) _ _ e
  refine ⟨Nat.le_trans c1 (take_countP_le _ _ _), ?_⟩
  have hall : xs.countP (fun y => decide (y.toNat / 2^ef.l ≤ pos.toNat / 2^ef.l)) = cnt (bitFn hb) p := by
    apply countP_split xs _ _ p3
    · intro k hk hkr
      rw [decide_eq_true_iff]
      have := h.high.le_of_lt k (by rw [List.length_map]; exact hk) p (by omega)
      rw [List.getElem_map] at this
      have hnn := Nat.zero_le (pos.toNat / 2^ef.l)
      omega
    · intro k hk hkr
      have := p5 k hk hkr
      rw [decide_eq_false_iff_not]; omega
  have hsplit : xs.countP (fun y => decide (y.toNat / 2^ef.l ≤ pos.toNat / 2^ef.l)) =
      xs.countP (· < pos) + xs.countP (fun y => sameHigh ef.l pos y && decide (pos ≤ y)) := by
    clear e c1 c2 c3 hall p1 p2 p3 p4 p5 h
    induction xs with
    | nil => rfl
    | cons y ys ih =>
      rw [List.countP_cons, List.countP_cons, List.countP_cons, ih]
      have hd : (decide (y.toNat / 2^ef.l ≤ pos.toNat / 2^ef.l)) =
          (decide (y < pos) || (sameHigh ef.l pos y && decide (pos ≤ y))) := by
        rw [Bool.eq_iff_iff]
        unfold sameHigh
        simp only [Bool.or_eq_true, Bool.and_eq_true, decide_eq_true_iff, BitVec.lt_def, BitVec.le_def]
        constructor
        · intro hd
          rcases Nat.lt_or_ge y.toNat pos.toNat with a | a
          · exact Or.inl a
          · exact Or.inr ⟨Nat.le_antisymm hd (Nat.div_le_div_right a), a⟩
        · rintro (a | ⟨a, _⟩)
          · exact Nat.div_le_div_right (Nat.le_of_lt a)
          · omega
      have hx : ¬ (decide (y < pos) = true ∧ (sameHigh ef.l pos y && decide (pos ≤ y)) = true) := by
        simp only [Bool.and_eq_true, decide_eq_true_iff, BitVec.lt_def, BitVec.le_def]
        rintro ⟨a, _, b⟩; omega
      rw [hd]
      revert hx
      cases decide (y < pos) <;> cases (sameHigh ef.l pos y && decide (pos ≤ y)) <;> intro hx <;> simp at hx ⊢ <;> omega
  omega

/-- low parts read by `operator[]` -/
theorem accessC_count (h : Good ef n xs hb) (hr : Rank ef hb) (pos : Word) (hp : pos < n) :
    ∃ c, accessC ov ef pos = some (decide (pos ∈ xs), c) ∧ c ≤ xs.countP (sameHigh ef.l pos) := by
  obtain ⟨c, e⟩ := BitVector.of_fst (accessC_fst ov ef pos) (access_eq ov h hr pos hp)
  refine ⟨c, e, ?_⟩
  have hlt := BitVec.lt_def.1 hp
  obtain ⟨p, p1, p2, p3, p4, p5⟩ := bucket h hr pos (BitVec.le_def.2 (by omega))
  unfold accessC at e
  rw [h.size, assertP_eq _ hp, bind_pure_some, assertP_eq _ hr.pos, bind_pure_some, shr_eq _ _ h.lb,
    bind_pure_some, shr_toNat, p1, bind_pure_some, subU_eq _ _ (by omega), bind_pure_some, lowMask_eq _ h.lb, bind_pure_some] at e
  exact Nat.le_trans (accessLoopC_count ov h pos _ p _ (by omega) (by omega) (by omega) _ _ e) (take_countP_le _ _ _)

theorem deltaC_fst (ef : EliasFano) (k : Nat) : (deltaC ov ef k).map Prod.fst = delta ov ef k := by
  unfold deltaC delta
  cases ef.d1.select false ef.high k with
  | none => rfl
  | some high =>
    rw [bind_pure_some, bind_pure_some]
    cases getLow ov ef k with
    | none => rfl
    | some low =>
      rw [bind_pure_some, bind_pure_some]
      by_cases hk : k ≠ 0
      · rw [if_pos hk, if_pos hk]
        cases subU high 1 with
        | none => rfl
        | some hm =>
          rw [bind_pure_some, bind_pure_some, ← BitVector.predecessorC_fst]
          cases ef.high.predecessorC false hm with
          | none => rfl
          | some q =>
            obtain ⟨p, c⟩ := q
            rw [bind_pure_some]
            simp only [Option.map_some]
            rw [bind_pure_some]
            cases subU high p with
            | none => rfl
            | some d =>
              rw [bind_pure_some, bind_pure_some]
              cases subU d 1 with
              | none => rfl
              | some d =>
                rw [bind_pure_some, bind_pure_some]
                cases shl (BitVec.ofNat 64 d) ef.l with
                | none => rfl
                | some x =>
                  rw [bind_pure_some, bind_pure_some]
                  cases getLow ov ef (k-1) <;> rfl
      · rw [if_neg hk, if_neg hk]
        cases subU high k with
        | none => rfl
        | some d =>
          rw [bind_pure_some, bind_pure_some]
          cases shl (BitVec.ofNat 64 d) ef.l <;> rfl

theorem selectRangeC_fst (ef : EliasFano) (k : Nat) : (selectRangeC ov ef k).map Prod.fst = selectRange ov ef k := by
  unfold selectRangeC selectRange
  cases assertP (k + 1 < ef.numOnes) with
  | none => rfl
  | some _ =>
    rw [bind_pure_some, bind_pure_some]
    cases ef.d1.select false ef.high k with
    | none => rfl
    | some b =>
      rw [bind_pure_some, bind_pure_some]
      cases getLow ov ef k with
      | none => rfl
      | some lb =>
        rw [bind_pure_some, bind_pure_some, ← BitVector.successorC_fst]
        cases ef.high.successorC false (b + 1) with
        | none => rfl
        | some q =>
          obtain ⟨he, c⟩ := q
          rw [bind_pure_some]
          simp only [Option.map_some]
          rw [bind_pure_some]
          cases getLow ov ef (k+1) with
          | none => rfl
          | some le =>
            rw [bind_pure_some, bind_pure_some]
            cases subU b k with
            | none => rfl
            | some db =>
              rw [bind_pure_some, bind_pure_some]
              cases shl (BitVec.ofNat 64 db) ef.l with
              | none => rfl
              | some xb =>
                rw [bind_pure_some, bind_pure_some]
                cases subU he (k+1) with
                | none => rfl
                | some de =>
                  rw [bind_pure_some, bind_pure_some]
                  cases shl (BitVec.ofNat 64 de) ef.l <;> rfl

/-- words read by `delta` -/
theorem deltaC_count (h : Good ef n xs hb) (k : Nat) (hk : k + 1 < xs.length) :
    ∃ c, deltaC ov ef (k+1) = some (xs[k+1] - xs[k], c) ∧
      c ≤ (xs[k+1].toNat / 2^ef.l - xs[k].toNat / 2^ef.l) / 64 + 2 := by
  obtain ⟨c, e⟩ := BitVector.of_fst (deltaC_fst ov ef (k+1)) (delta_succ ov h k hk)
  refine ⟨c, e, ?_⟩
  obtain ⟨a1, a2, a3⟩ := hi_one h k (by omega)
  obtain ⟨b1, b2, b3⟩ := hi_one h (k+1) hk
  have hd := Nat.div_le_div_right (c := 2^ef.l) (sorted_le h k (k+1) (by omega) hk)
  have hnn := Nat.zero_le (xs[k].toNat / 2^ef.l)
  have hnn' := Nat.zero_le (xs[k+1].toNat / 2^ef.l)
  unfold deltaC at e
  rw [h.sel (k+1) hk, bind_pure_some, getLow_eq ov h (k+1) hk, bind_pure_some, if_pos (by omega), subU_eq _ _ (by omega),
    bind_pure_some] at e
  have hp := BitVector.predecessor_cases false h.highRep (xs[k+1].toNat / 2^ef.l + (k+1) - 1) (by omega)
  rw [← BitVector.predecessorC_fst] at hp
  cases hq : ef.high.predecessorC false (xs[k+1].toNat / 2^ef.l + (k+1) - 1) with
  | none => rw [hq] at e; exact absurd e (by simp)
  | some q =>
    obtain ⟨p, c'⟩ := q
    rw [hq] at hp
    obtain ⟨q1, q2, q3⟩ := hp
    rw [hq, bind_pure_some] at e
    simp only [Option.bind_eq_bind, Option.bind_eq_some_iff] at e
    obtain ⟨d, _, d', _, x, _, lo, _, e⟩ := e
    have e' := Option.some.inj e
    simp only [Prod.mk.injEq] at e'
    have hpk : xs[k].toNat / 2^ef.l + k ≤ p := by
      rcases Nat.lt_or_ge p (xs[k].toNat / 2^ef.l + k) with c | c
      · have := q3 _ c (by omega); rw [Bool.false_xor, a1] at this; simp at this
      · exact c
    have := BitVector.predecessorC_count _ _ _ _ _ hq
    omega

theorem deltaC_zero (h : Good ef n xs hb) (h0 : 0 < xs.length) : deltaC ov ef 0 = some (xs[0], 0) := by
  obtain ⟨c, e⟩ := BitVector.of_fst (deltaC_fst ov ef 0) (delta_zero ov h h0)
  rw [e]
  unfold deltaC at e
  rw [h.sel 0 h0, bind_pure_some, getLow_eq ov h 0 h0, bind_pure_some, if_neg (by simp), subU_eq _ _ (Nat.zero_le _),
    bind_pure_some, shl_eq _ _ h.lb, bind_pure_some] at e
  have e' := Option.some.inj e
  simp only [Prod.mk.injEq] at e'
  rw [← e'.2]

/-- words read by `select_range` -/
theorem selectRangeC_count (h : Good ef n xs hb) (k : Nat) (hk : k + 1 < xs.length) :
    ∃ c, selectRangeC ov ef k = some ((xs[k], xs[k+1]), c) ∧
      c ≤ (xs[k+1].toNat / 2^ef.l - xs[k].toNat / 2^ef.l) / 64 + 2 := by
  obtain ⟨c, e⟩ := BitVector.of_fst (selectRangeC_fst ov ef k) (selectRange_eq ov h k hk)
  refine ⟨c, e, ?_⟩
  obtain ⟨a1, a2, a3⟩ := hi_one h k (by omega)
  obtain ⟨b1, b2, b3⟩ := hi_one h (k+1) hk
  have hd := Nat.div_le_div_right (c := 2^ef.l) (sorted_le h k (k+1) (by omega) hk)
  unfold selectRangeC at e
  rw [assertP_eq _ (by unfold numOnes; rw [h.ones]; exact hk), bind_pure_some, h.sel k (by omega), bind_pure_some,
    getLow_eq ov h k (by omega), bind_pure_some] at e
  have hp := BitVector.successor_cases false h.highRep (xs[k].toNat / 2^ef.l + k + 1) (by omega)
  rw [← BitVector.successorC_fst] at hp
  cases hq : ef.high.successorC false (xs[k].toNat / 2^ef.l + k + 1) with
  | none => rw [hq] at e; exact absurd e (by simp)
  | some q =>
    obtain ⟨p, c'⟩ := q
    rw [hq] at hp
    obtain ⟨q1, q0, q2, q3⟩ := hp
    rw [hq, bind_pure_some] at e
    simp only [Option.bind_eq_bind, Option.bind_eq_some_iff] at e
    obtain ⟨d, _, d', _, x, _, lo, _, y, _, e⟩ := e
    have e' := Option.some.inj e
    simp only [Prod.mk.injEq] at e'
    have hpk : p ≤ xs[k+1].toNat / 2^ef.l + (k+1) := by
      rcases Nat.lt_or_ge (xs[k+1].toNat / 2^ef.l + (k+1)) p with c | c
      · have := q3 _ (by omega) c; rw [Bool.false_xor, b1] at this; simp at this
      · exact c
    have := BitVector.successorC_count _ _ _ _ _ hq
    omega

/-- the words read while an `elias_fano` is made from a bitmap -/
theorem ofBitmapC_count (b : Builder) (l : List Bool) (hi : Succinct.Inv b l) (wr : Bool) (ef : EliasFano) (c : Nat)
    (e : ofBitmapC b wr = some (ef, c)) : c ≤ wordsFor l.length + l.count true := by
  obtain ⟨v, ev, hv⟩ := BitVector.ofBuilder_rep b l hi
  unfold ofBitmapC at e
  rw [ev, bind_pure_some] at e
  simp only [] at e
  cases h0 : EFBuilder.new (BitVec.ofNat 64 v.size) (v.bits.map popcount).sum with
  | none => rw [h0] at e; exact absurd e (by simp)
  | some b0 =>
    rw [h0, bind_pure_some] at e
    cases h1 : fillLoopC v (v.bits.map popcount).sum 0 b0 with
    | none => rw [h1] at e; exact absurd e (by simp)
    | some q =>
      obtain ⟨b1, c1⟩ := q
      rw [h1, bind_pure_some] at e
      simp only [] at e
      cases h2 : build b1 wr with
      | none => rw [h2] at e; exact absurd e (by simp)
      | some ef' =>
        rw [h2, bind_pure_some] at e
        have e' := Option.some.inj e
        simp only [Prod.mk.injEq] at e'
        have := fillLoopC_count _ _ _ _ _ _ h1 (Nat.zero_le _)
        rw [sum_popcount_rep hv, hv.len] at this
        rw [wordsFor_eq]
        omega

/-- a bucket of distinct values -/
theorem sameHigh_distinct (l : Nat) (pos : Word) (xs : List Word) (h : xs.Pairwise (· < ·)) :
    xs.countP (sameHigh l pos) ≤ 2^l := by
  rw [List.countP_eq_length_filter]
  have hp := (h.filter (sameHigh l pos)).map BitVec.toNat (S := (· < ·)) (fun a b h => BitVec.lt_def.1 h)
  have hm : ∀ y ∈ (xs.filter (sameHigh l pos)).map BitVec.toNat, pos.toNat / 2^l * 2^l ≤ y ∧ y < pos.toNat / 2^l * 2^l + 2^l := by
    intro y hy
    obtain ⟨x, hx, rfl⟩ := List.mem_map.1 hy
    have := (List.mem_filter.1 hx).2
    unfold sameHigh at this
    rw [decide_eq_true_iff] at this
    rw [← this]
    have a := Nat.div_add_mod x.toNat (2^l)
    have b := Nat.mod_lt x.toNat (Nat.two_pow_pos l)
    rw [Nat.mul_comm] at a
    omega
  rw [← List.length_map (f := BitVec.toNat)]
  generalize (xs.filter (sameHigh l pos)).map BitVec.toNat = ys at hp hm
  generalize pos.toNat / 2^l * 2^l = A at hm
  generalize 2^l = B at hm ⊢
  clear h
  induction ys generalizing A B with
  | nil => exact Nat.zero_le _
  | cons y ys ih =>
    rw [List.pairwise_cons] at hp
    have hy := hm y (by simp)
    have := ih (A := y+1) (B := A + B - (y+1)) hp.2 (by
      intro z hz
      have := hp.1 z hz
      have := hm z (by simp [hz])
      omega)
    rw [List.length_cons]
    omega

theorem two_pow_le {n : Word} {m l : Nat} (h : EFBuilder.lowLen n m = some l) : 2^l ≤ max 1 (n.toNat / m) := by
  rcases EFBuilder.lowLen_spec h with ⟨_, rfl⟩ | ⟨h0, h1, _, _⟩
  · simp
  · have : 2^l ≤ n.toNat / m := (Nat.le_div_iff_mul_le h0).2 (by rw [Nat.mul_comm]; exact h1)
    omega

theorem sameHigh_near {l : Nat} {pos y : Word} (h : sameHigh l pos y = true) :
    y.toNat < pos.toNat + 2^l ∧ pos.toNat < y.toNat + 2^l := by
  unfold sameHigh at h
  rw [decide_eq_true_iff] at h
  have a := Nat.div_add_mod y.toNat (2^l)
  have b := Nat.mod_lt y.toNat (Nat.two_pow_pos l)
  have a' := Nat.div_add_mod pos.toNat (2^l)
  have b' := Nat.mod_lt pos.toNat (Nat.two_pow_pos l)
  rw [h] at a
  omega

end EliasFano
end Succinct
