import Verif.Lemmas.TestRank
import Verif.Lemmas.Enumerator
import Verif.Lemmas.Ones

/-! # The drivers of the enumerators -/
namespace Succinct
namespace Test
open Spec
open RSBitVector (bind_pure_some)

/-- the first `k` values of an enumerator -/
def pull {σ : Type} (next : σ → Option (Word × σ)) : Nat → σ → Option (List Word)
  | 0, _ => some []
  | k + 1, e => do
    let (x, e) ← next e
    let xs ← pull next k e
    pure (x :: xs)

theorem ones_eq (v : List Bool) : ones v = onesIn (bitFn v) 0 v.length := by
  unfold ones onesIn
  rw [List.range_eq_range']
  apply List.filter_congr
  intro i hi
  rw [List.mem_range'_1] at hi
  rw [bitFn_getElem? v i (by omega)]
  cases bitFn v i <;> rfl

theorem selectEnumeration_aux {σ : Type} (next : σ → Option (Word × σ)) (v : List Bool) : ∀ (n i : Nat) (e : σ), i + n ≤ v.length →
    ((forUp (fun i e => do
      let x ← rd v i
      if x then do
        let (res, e) ← next e
        assertP (i = res.toNat)
        pure e
      else pure e) n i e).isSome = true ↔
      ∃ ws, pull next (onesIn (bitFn v) i (i+n)).length e = some ws ∧ ws.map BitVec.toNat = onesIn (bitFn v) i (i+n))
  | 0, i, e, h => by
    rw [Nat.add_zero, onesIn_of_ge _ (Nat.le_refl _)]
    simp [forUp, pull]
  | n+1, i, e, h => by
    have hr : rd v i = some (bitFn v i) := by
      show v[i]? = _
      exact bitFn_getElem? v i (by omega)
    have ih := selectEnumeration_aux next v n (i+1)
    rw [show i + 1 + n = i + (n + 1) by omega] at ih
    unfold forUp
    rw [hr, bind_pure_some]
    cases hb : bitFn v i with
    | true =>
      rw [if_pos rfl, onesIn_cons (by omega) hb, List.length_cons, pull]
      cases hn : next e with
      | none => simp
      | some p =>
        obtain ⟨w, e'⟩ := p
        rw [bind_pure_some, bind_pure_some]
        dsimp only
        by_cases hw : i = w.toNat
        · rw [assertP_eq _ hw, bind_pure_some]
          show (forUp _ n (i+1) e').isSome = true ↔ _
          rw [ih e' (by omega)]
          constructor
          · rintro ⟨ws, h1, h2⟩
            exact ⟨w :: ws, by rw [h1]; rfl, by rw [List.map_cons, h2, ← hw]⟩
          · rintro ⟨ws, h1, h2⟩
            cases hp : pull next (onesIn (bitFn v) (i+1) (i+(n+1))).length e' with
            | none => rw [hp] at h1; simp at h1
            | some xs =>
              rw [hp, bind_pure_some] at h1
              have h1 := Option.some.inj h1
              subst h1
              simp at h2
              exact ⟨xs, rfl, h2.2⟩
        · rw [assertP_none hw]
          constructor
          · intro g; simp at g
          · rintro ⟨ws, h1, h2⟩
            cases hp : pull next (onesIn (bitFn v) (i+1) (i+(n+1))).length e' with
            | none => rw [hp] at h1; simp at h1
            | some xs =>
              rw [hp, bind_pure_some] at h1
              have h1 := Option.some.inj h1
              subst h1
              simp at h2
              exact absurd h2.1.symm hw
    | false =>
      rw [if_neg (by simp)]
      show (forUp _ n (i+1) e).isSome = true ↔ _
      rw [ih e (by omega), onesIn_split _ (show i ≤ i + 1 by omega) (show i + 1 ≤ i + (n+1) by omega),
        onesIn_nil (a := i) (b := i+1) (fun p h1 h2 => by
          have : p = i := by omega
          subst this; exact hb), List.nil_append]

theorem selectEnumeration_iff {σ : Type} (next : σ → Option (Word × σ)) (v : List Bool) (e : σ) :
    selectEnumeration next v e = some () ↔ ∃ ws, pull next (ones v).length e = some ws ∧ ws.map BitVec.toNat = ones v := by
  have h := selectEnumeration_aux next v v.length 0 e (by omega)
  rw [Nat.zero_add, ← ones_eq] at h
  rw [← h]
  unfold selectEnumeration
  generalize forUp _ _ _ _ = r
  cases r <;> simp

theorem delta_iff (xs : List Word) (select dl : Nat → Option Word) (hs : ∀ i, i < xs.length → select i = xs[i]?) :
    delta xs.length select dl = some () ↔ ∀ i x, xs[i]? = some x → dl i = some (x - (if i = 0 then 0 else xs.getD (i-1) 0)) := by
  unfold delta
  rw [forUp_unit (fun i => ∀ x, xs[i]? = some x → dl i = some (x - (if i = 0 then 0 else xs.getD (i-1) 0)))]
  · constructor
    · intro g i x hx
      have : i < xs.length := by
        by_contra hc
        rw [List.getElem?_eq_none (by omega)] at hx
        simp at hx
      exact g i (by omega) (by omega) x hx
    · intro g j _ _ x hx
      exact g j x hx
  · intro j _ hj
    rw [Nat.zero_add] at hj
    rw [hs j hj, List.getElem?_eq_getElem hj]
    by_cases h0 : j = 0
    · rw [if_neg (by simpa using h0), if_pos h0, bind_pure_some, check_iff]
      simp
    · rw [if_pos h0, if_neg h0, bind_pure_some, hs (j-1) (by omega), List.getElem?_eq_getElem (by omega), bind_pure_some, check_iff,
        List.getD_eq_getElem?_getD, List.getElem?_eq_getElem (by omega)]
      simp

theorem container_iff (v : List Word) (size : Option Nat) (get : Nat → Option Word) :
    container v size get = some () ↔ size = some v.length ∧ ∀ i, i < v.length → get i = v[i]? := by
  unfold container
  cases size with
  | none => simp
  | some n =>
    rw [bind_pure_some]
    by_cases h : v.length = n
    · subst h
      rw [assertP_eq _ rfl, bind_pure_some, forUp_unit (fun i => get i = v[i]?)]
      · exact ⟨fun g => ⟨rfl, fun i hi => g i (by omega) (by omega)⟩, fun g j _ hj => g.2 j (by omega)⟩
      · intro j _ hj
        rw [rd_getElem v j (by omega), bind_pure_some, check_iff, List.getElem?_eq_getElem]
    · rw [assertP_none h]
      exact ⟨fun g => by simp at g, fun g => absurd (by simpa using g.1.symm) h⟩

theorem jumps_ok {σ β : Type} [DecidableEq β] (enumAt : Nat → Option σ) (next : σ → Option (β × σ)) (rand : Nat → Nat) (v : List β)
    (h1 : ∀ i, i < v.length → ∃ e x e', enumAt i = some e ∧ next e = some (x, e') ∧ v[i]? = some x) (h2 : (enumAt v.length).isSome = true) :
    ∀ (fuel k pos : Nat) (e : σ), enumAt pos = some e → pos ≤ v.length → v.length - pos < fuel →
      jumps enumAt next rand v v.length fuel k pos e = some ()
  | 0, k, pos, e, _, _, h => by omega
  | fuel+1, k, pos, e, he, hp, hf => by
    unfold jumps
    by_cases hlt : pos < v.length
    · rw [if_pos hlt]
      obtain ⟨e1, x, e', g1, g2, g3⟩ := h1 pos hlt
      rw [he] at g1
      have g1 := Option.some.inj g1
      subst g1
      have hr : rd v pos = some x := g3
      rw [g2, bind_pure_some]
      dsimp only
      rw [hr, bind_pure_some, assertP_eq _ rfl, bind_pure_some, subU_eq _ _ (by omega), bind_pure_some]
      have hm : rand k % (v.length - (pos+1) + 1) < v.length - (pos+1) + 1 := Nat.mod_lt _ (by omega)
      generalize hq : pos + 1 + rand k % (v.length - (pos+1) + 1) = q
      have hql : q ≤ v.length := by omega
      have : ∃ e, enumAt q = some e := by
        rcases Nat.eq_or_lt_of_le hql with rfl | k
        · exact Option.isSome_iff_exists.1 h2
        · obtain ⟨e, x, e', g, _⟩ := h1 q k
          exact ⟨e, g⟩
      obtain ⟨e2, g4⟩ := this
      rw [g4, bind_pure_some]
      exact jumps_ok enumAt next rand v h1 h2 fuel (k+1) q e2 g4 hql (by omega)
    · rw [if_neg hlt]; rfl

/-! ## `unary_enumerator` -/

section
variable {bits : List Word} {v : List Bool}

theorem ones_get (v : List Bool) (r p : Nat) : (ones v)[r]? = some p ↔ p < v.length ∧ bitFn v p = true ∧ cnt (bitFn v) p = r := by
  rw [ones_eq, onesIn_getElem?_iff]

theorem one_succ {c p : Nat} (hp : bitFn v p = true) (hc : cnt (bitFn v) p = cnt (bitFn v) c) : IsSucc true v c p := by
  have hcp : c ≤ p := by
    by_contra h
    have := cnt_lt_of_true (f := bitFn v) (show p < c by omega) hp
    omega
  refine ⟨hcp, (bitFn_eq_true _ _).1 hp, fun r h1 h2 => ?_⟩
  have := (cnt_eq_iff_false hcp).1 hc.symm r h1 h2
  intro g
  rw [(bitFn_eq_true _ _).2 g] at this
  simp at this

theorem one_le {c p k : Nat} (hp : bitFn v p = true) (hc : cnt (bitFn v) p = cnt (bitFn v) c + k) : c ≤ p := by
  by_contra h
  have := cnt_lt_of_true (f := bitFn v) (show p < c by omega) hp
  omega

theorem unaryNext_ok (hr : Repr bits v) (hv : v ≠ []) : unaryNext bits (ones v) = some () := by
  unfold unaryNext
  obtain ⟨e, k1, k2, _⟩ := UEnum.new_good hr 0 (List.length_pos_iff.2 hv)
  rw [k1, bind_pure_some]
  rcases forUp_iff (f := fun r (e : UEnum) => do
    let (pos, e) ← e.next bits
    let x ← rd (ones v) r
    assertP (x = pos)
    pure e) (fun r e => ∃ c, UEnum.Good v e c ∧ cnt (bitFn v) c = r) (fun _ => True) (ones v).length 0 e ⟨0, k2, cnt_zero _⟩ (fun r e _ hlt hI => by
      left
      obtain ⟨c, g1, g2⟩ := hI
      have hx : (ones v)[r]? = some (ones v)[r] := List.getElem?_eq_getElem (by omega)
      obtain ⟨p1, p2, p3⟩ := (ones_get v r _).1 hx
      obtain ⟨e', n1, n2⟩ := UEnum.next_good hr e c _ g1 (one_succ p2 (by omega))
      refine ⟨trivial, e', ?_, _, n2, by rw [cnt_succ, p2, p3]; rfl⟩
      have hx' : rd (ones v) r = some (ones v)[r] := hx
      rw [n1, bind_pure_some]
      dsimp only
      rw [hx', bind_pure_some, assertP_eq _ rfl]
      rfl) with ⟨_, s', h2, _⟩ | ⟨⟨j, _, _, h3⟩, _⟩
  · rw [h2]; rfl
  · exact absurd trivial h3

theorem unarySkip_ok (hr : Repr bits v) (hv : v ≠ []) : unarySkip bits (ones v) = some () := by
  unfold unarySkip
  obtain ⟨e, k1, k2, _⟩ := UEnum.new_good hr 0 (List.length_pos_iff.2 hv)
  rw [k1, bind_pure_some]
  rcases forUp_iff (f := fun r (e : UEnum) => do
    forUp (fun k _ => do
      let ee ← e.skip bits k
      let (pos, _) ← ee.next bits
      let x ← rd (ones v) (r + k)
      assertP (x = pos)) (min 256 ((ones v).length - r)) 0 ()
    let (_, e) ← e.next bits
    pure e) (fun r e => ∃ c, UEnum.Good v e c ∧ cnt (bitFn v) c = r) (fun _ => True) (ones v).length 0 e ⟨0, k2, cnt_zero _⟩ (fun r e _ hlt hI => by
      left
      obtain ⟨c, g1, g2⟩ := hI
      have hx : (ones v)[r]? = some (ones v)[r] := List.getElem?_eq_getElem (by omega)
      obtain ⟨p1, p2, p3⟩ := (ones_get v r _).1 hx
      obtain ⟨e', n1, n2⟩ := UEnum.next_good hr e c _ g1 (one_succ p2 (by omega))
      refine ⟨trivial, e', ?_, _, n2, by rw [cnt_succ, p2, p3]; rfl⟩
      dsimp only
      rw [(forUp_unit (fun _ => True) _ _ ?_).2 (fun _ _ _ => trivial), bind_pure_some, n1, bind_pure_some]
      · rfl
      · intro k _ hk
        refine ⟨fun _ => trivial, fun _ => ?_⟩
        have hy : (ones v)[r+k]? = some (ones v)[r+k] := List.getElem?_eq_getElem (by omega)
        obtain ⟨q1, q2, q3⟩ := (ones_get v (r+k) _).1 hy
        obtain ⟨ee, s1, s2, _⟩ := UEnum.skip_good hr e c k _ g1 (one_le (k := k) q2 (by omega)) ((isSelect1_iff _ _ _).2 ⟨q2, by rw [rank1_eq_cnt]; omega⟩)
        obtain ⟨e2, t1, _⟩ := UEnum.next_good hr ee _ _ s2 (one_succ q2 rfl)
        have hy' : rd (ones v) (r+k) = some (ones v)[r+k] := hy
        rw [s1, bind_pure_some, t1, bind_pure_some]
        dsimp only
        rw [hy', bind_pure_some, assertP_eq _ rfl]) with ⟨_, s', h2, _⟩ | ⟨⟨j, _, _, h3⟩, _⟩
  · rw [h2]; rfl
  · exact absurd trivial h3

theorem unarySkipNoMove_ok (hr : Repr bits v) (hv : v ≠ []) : unarySkipNoMove bits (ones v) = some () := by
  unfold unarySkipNoMove
  obtain ⟨e, k1, k2, _⟩ := UEnum.new_good hr 0 (List.length_pos_iff.2 hv)
  rw [k1, bind_pure_some]
  rcases forUp_iff (f := fun r (e : UEnum) => do
    forUp (fun k _ => do
      let skip ← e.skipNoMove bits k
      let (pos, _) ← e.next bits
      let x ← rd (ones v) r
      assertP (x = pos)
      let y ← rd (ones v) (r + k)
      assertP (y = skip)) (min 256 ((ones v).length - r)) 0 ()
    let (_, e) ← e.next bits
    pure e) (fun r e => ∃ c, UEnum.Good v e c ∧ cnt (bitFn v) c = r) (fun _ => True) (ones v).length 0 e ⟨0, k2, cnt_zero _⟩ (fun r e _ hlt hI => by
      left
      obtain ⟨c, g1, g2⟩ := hI
      have hx : (ones v)[r]? = some (ones v)[r] := List.getElem?_eq_getElem (by omega)
      obtain ⟨p1, p2, p3⟩ := (ones_get v r _).1 hx
      obtain ⟨e', n1, n2⟩ := UEnum.next_good hr e c _ g1 (one_succ p2 (by omega))
      refine ⟨trivial, e', ?_, _, n2, by rw [cnt_succ, p2, p3]; rfl⟩
      dsimp only
      rw [(forUp_unit (fun _ => True) _ _ ?_).2 (fun _ _ _ => trivial), bind_pure_some, n1, bind_pure_some]
      · rfl
      · intro k _ hk
        refine ⟨fun _ => trivial, fun _ => ?_⟩
        have hy : (ones v)[r+k]? = some (ones v)[r+k] := List.getElem?_eq_getElem (by omega)
        obtain ⟨q1, q2, q3⟩ := (ones_get v (r+k) _).1 hy
        have s1 := UEnum.skipNoMove_good hr e c k _ g1 (one_le (k := k) q2 (by omega)) ((isSelect1_iff _ _ _).2 ⟨q2, by rw [rank1_eq_cnt]; omega⟩)
        have hx' : rd (ones v) r = some (ones v)[r] := hx
        have hy' : rd (ones v) (r+k) = some (ones v)[r+k] := hy
        rw [s1, bind_pure_some, n1, bind_pure_some]
        dsimp only
        rw [hx', bind_pure_some, assertP_eq _ rfl, bind_pure_some, hy', bind_pure_some, assertP_eq _ rfl]) with ⟨_, s', h2, _⟩ | ⟨⟨j, _, _, h3⟩, _⟩
  · rw [h2]; rfl
  · exact absurd trivial h3

theorem scan_ok {q : Nat} : ∀ (fuel p : Nat), IsSucc true v p q → q - p < fuel → scan v fuel p = some q
  | 0, _, _, h => by omega
  | fuel+1, p, hq, hf => by
    have hql : q < v.length := bitFn_lt _ _ ((bitFn_eq_true _ _).2 hq.2.1)
    have hp := hq.1
    unfold scan
    rw [rd_getElem v p (by omega), bind_pure_some]
    rcases Nat.eq_or_lt_of_le hp with rfl | hlt
    · have : v[p] = true := by
        have := hq.2.1
        rw [List.getElem?_eq_getElem hql] at this
        simpa using this
      rw [if_neg (by simp [this])]; rfl
    · have : v[p] = false := by
        have := hq.2.2 p (Nat.le_refl _) hlt
        rw [List.getElem?_eq_getElem (by omega)] at this
        simpa using this
      rw [if_pos ⟨this, by omega⟩]
      exact scan_ok fuel (p+1) ⟨hlt, hq.2.1, fun r h1 h2 => hq.2.2 r (by omega) h2⟩ (by omega)

theorem rank0_succ (i : Nat) (h : i < v.length) : rank0 v (i+1) = rank0 v i + if v[i] = false then 1 else 0 :=
  count_take_succ false v i h

theorem exists_succ (h : v.getLast? = some true) (p : Nat) (hp : p < v.length) : ∃ q, IsSucc true v p q := by
  classical
  have hl : v[v.length-1]? = some true := by rw [← List.getLast?_eq_getElem?]; exact h
  have hex : ∃ d, v[p+d]? = some true := ⟨v.length - 1 - p, by rw [show p + (v.length - 1 - p) = v.length - 1 by omega]; exact hl⟩
  refine ⟨p + Nat.find hex, by omega, Nat.find_spec hex, fun r h1 h2 => ?_⟩
  have := Nat.find_min hex (m := r - p) (by omega)
  rwa [show p + (r - p) = r by omega] at this

theorem unarySkip0At_ok (hr : Repr bits v) (h : v.getLast? = some true) (pos : Nat) (hp : pos < v.length) : ∀ (n d skip : Nat), pos + d + n ≤ v.length →
    rank0 v (pos+d) = rank0 v pos + skip → unarySkip0At bits v pos n d skip = some ()
  | 0, _, _, _, _ => rfl
  | n+1, d, skip, hn, hs => by
    unfold unarySkip0At
    have h1 := rank0_succ (v := v) (pos+d) (by omega)
    rw [rd_getElem v (pos+d) (by omega), bind_pure_some]
    by_cases hb : v[pos+d] = false
    · rw [if_pos hb] at h1
      rw [if_pos hb]
      obtain ⟨e, k1, k2, k3⟩ := UEnum.new_good hr pos hp
      obtain ⟨ee, s1, s2, s3⟩ := UEnum.skip0_good hr e pos skip (pos+d) k2 k3 (by omega) ⟨by rw [List.getElem?_eq_getElem (by omega), hb], hs⟩
      obtain ⟨q, hq⟩ := exists_succ h (pos+d) (by omega)
      obtain ⟨e2, t1, _⟩ := UEnum.next_good hr ee _ q s2 hq
      have hql : q < v.length := bitFn_lt _ _ ((bitFn_eq_true _ _).2 hq.2.1)
      have hrq : rd v q = some true := hq.2.1
      rw [k1, bind_pure_some, s1, bind_pure_some, scan_ok _ _ hq (by omega), bind_pure_some, hrq, bind_pure_some, if_neg (by simp), t1, bind_pure_some]
      dsimp only
      rw [assertP_eq _ rfl, bind_pure_some]
      exact unarySkip0At_ok hr h pos hp n (d+1) (skip+1) (by omega) (by rw [← Nat.add_assoc, h1]; omega)
    · rw [if_neg hb] at h1
      rw [if_neg hb]
      exact unarySkip0At_ok hr h pos hp n (d+1) skip (by omega) (by rw [← Nat.add_assoc, h1]; omega)

theorem unarySkip0_iff (hr : Repr bits v) : unarySkip0 bits v = some () ↔ v.getLast? = some true := by
  unfold unarySkip0
  by_cases hv : v = []
  · subst hv
    have hl := hr.len
    rw [wordsFor_eq] at hl
    have : rd bits (0 / 64) = none := by
      show bits[0/64]? = none
      apply List.getElem?_eq_none
      simp at hl
      simp [hl]
    unfold UEnum.new
    rw [this]
    simp
  · have hpos := List.length_pos_iff.2 hv
    obtain ⟨e, k1, k2, k3⟩ := UEnum.new_good hr 0 hpos
    rw [k1, bind_pure_some]
    constructor
    · intro g
      by_contra hc
      have hl : v[v.length-1] = false := by
        rw [List.getLast?_eq_getElem?, List.getElem?_eq_getElem (by omega)] at hc
        simpa using hc
      have g := (forUp_unit (fun pos => unarySkip0At bits v pos (min 256 (v.length - pos)) 0 0 = some ()) v.length 0 (fun j _ _ => Iff.rfl)).1 g
        (v.length - 1) (by omega) (by omega)
      rw [show min 256 (v.length - (v.length - 1)) = 1 by omega, unarySkip0At, Nat.add_zero, rd_getElem v (v.length-1) (by omega), bind_pure_some, if_pos hl] at g
      obtain ⟨e, k1, k2, k3⟩ := UEnum.new_good hr (v.length-1) (by omega)
      have hsc : scan v (v.length + 1) (v.length - 1) = none := by
        obtain ⟨m, hm⟩ : ∃ m, v.length = m + 1 := ⟨v.length - 1, by omega⟩
        rw [hm, scan, Nat.add_sub_cancel, rd_getElem v m (by omega), bind_pure_some, if_pos ⟨by simpa [hm] using hl, by omega⟩, scan,
          show rd v (m+1) = none from List.getElem?_eq_none (by omega)]
        rfl
      rw [k1, bind_pure_some] at g
      obtain ⟨ee, s1, _⟩ := UEnum.skip0_good hr e (v.length-1) 0 (v.length-1) k2 k3 (by omega) ⟨by rw [List.getElem?_eq_getElem (by omega), hl], by omega⟩
      rw [s1, bind_pure_some, hsc] at g
      simp at g
    · intro h
      refine (forUp_unit (fun _ => True) _ _ ?_).2 (fun _ _ _ => trivial)
      intro pos _ hp
      exact ⟨fun _ => trivial, fun _ => unarySkip0At_ok hr h pos (by omega) _ 0 0 (by omega) (by rw [Nat.add_zero]; rfl)⟩

end
end Test
end Succinct
