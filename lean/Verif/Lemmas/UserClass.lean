import Verif.Spec.UserClass
import Verif.Lemmas.Mapper

/-! # Lemmas for C116 -/
namespace Succinct.Mapper
open Succinct.Spec
open RSBitVector (bind_pure_some)

theorem loadElems_length {img : List Byte} {es n p : Nat} {xs : List (List Byte)} (h : loadElems img es n p = some xs) : xs.length = n := by
  induction n generalizing p xs with
  | zero => rw [loadElems] at h; cases h; rfl
  | succ n ih =>
    rw [loadElems] at h
    obtain ⟨b, _, h2⟩ := bind_some h
    obtain ⟨r, h3, h4⟩ := bind_some h2
    cases h4
    rw [List.length_cons, ih h3]

/-- the bytes written for the members, after the flags word -/
def flatU (u : Nat → Option Content) : Visit → List Byte
  | .stop => []
  | .pod m _ rest => (match u m with | some (.pod bs) => bs | _ => []) ++ flatU u rest
  | .vec m _ rest => (match u m with | some (.vec xs) => leEnc 8 xs.length ++ xs.flatten | _ => []) ++ flatU u rest
  | .test p yes no => if p u then flatU u yes else flatU u no

theorem look_pod {img : List Byte} {c : Cell} {bs : List Byte} (h : c.look img = some (.pod bs)) : c = .pod bs := by
  cases c with
  | pod b => simp only [Cell.look, Option.some.injEq, Content.pod.injEq] at h; rw [h]
  | own xs => simp [Cell.look] at h
  | mapped es off n => simp [Cell.look] at h

theorem freezeP_eq (img : List Byte) (x : Members) (P : Visit) (h : WellTyped (fun m => (x m).look img) P) (o : Out) :
    freezeP img x P o = some ⟨o.bytes ++ flatU (fun m => (x m).look img) P, o.written + (flatU (fun m => (x m).look img) P).length⟩ := by
  induction P generalizing o with
  | stop => simp [freezeP, flatU]
  | pod m k rest ih =>
    obtain ⟨⟨bs, h1, h2⟩, h3⟩ := h
    have h1' := look_pod h1
    simp only [freezeP, flatU, h1']
    rw [if_pos h2, ih h3]
    simp [Out.put, Cell.look, h2, Nat.add_assoc]
  | vec m es rest ih =>
    obtain ⟨⟨xs, h1, h2, h4, h5⟩, h3⟩ := h
    have hl := flatten_length h2
    have hr : rdBytes xs.flatten 0 (xs.length * es) = some xs.flatten := by
      have := rdBytes_eq (mem := xs.flatten) (pre := []) (x := xs.flatten) (post := []) (by simp)
      rwa [hl] at this
    dsimp only at h1
    simp only [freezeP, flatU, h1]
    rw [bind_pure_some]
    simp only [Nat.mod_eq_of_lt h5]
    rw [hr, bind_pure_some, ih h3]
    simp [Out.put, leEnc_length, hl, Nat.add_assoc]
  | test p yes no ih1 ih2 =>
    rw [WellTyped] at h
    rw [freezeP, flatU]
    split
    · rename_i hp; rw [if_pos hp] at h; exact ih1 h o
    · rename_i hp; rw [if_neg hp] at h; exact ih2 h o

theorem flatU_length (u : Nat → Option Content) (P : Visit) (h : WellTyped u P) : (flatU u P).length = bytesOf u P := by
  induction P with
  | stop => rfl
  | pod m k rest ih =>
    obtain ⟨⟨bs, h1, h2⟩, h3⟩ := h
    simp [flatU, bytesOf, h1, h2, ih h3]
  | vec m es rest ih =>
    obtain ⟨⟨xs, h1, h2, _⟩, h3⟩ := h
    have hl := flatten_length h2
    simp only [flatU, bytesOf, h1, List.length_append, leEnc_length, hl, ih h3]
  | test p yes no ih1 ih2 =>
    rw [WellTyped] at h
    rw [flatU, bytesOf]
    split
    · rename_i hp; rw [if_pos hp] at h; exact ih1 h
    · rename_i hp; rw [if_neg hp] at h; exact ih2 h

theorem sizeP_eq (img : List Byte) (x : Members) (P : Visit) (h : WellTyped (fun m => (x m).look img) P) (s : Nat) :
    sizeP img x P s = some (s + bytesOf (fun m => (x m).look img) P) := by
  induction P generalizing s with
  | stop => simp [sizeP, bytesOf]
  | pod m k rest ih => rw [sizeP, bytesOf, ih h.2, Nat.add_assoc]
  | vec m es rest ih =>
    obtain ⟨⟨xs, h1, h2, h4, h5⟩, h3⟩ := h
    dsimp only at h1
    rw [sizeP, bytesOf]
    simp only [h1]
    cases hx : x m with
    | pod b => rw [hx] at h1; simp [Cell.look] at h1
    | own ys =>
      rw [hx] at h1
      simp only [Cell.look, Option.some.injEq, Content.vec.injEq] at h1
      subst h1
      simp only []
      rw [ih h3, Nat.mod_eq_of_lt h5]; simp only [Nat.add_assoc]
    | mapped e off n =>
      rw [hx] at h1
      simp only [Cell.look, Option.map_eq_some_iff] at h1
      obtain ⟨ys, h6, h7⟩ := h1
      cases h7
      have := loadElems_length h6
      subst this
      simp only []
      rw [ih h3, Nat.mod_eq_of_lt h5]; simp only [Nat.add_assoc]
  | test p yes no ih1 ih2 =>
    rw [WellTyped] at h
    rw [sizeP, bytesOf]
    split
    · rename_i hp; rw [if_pos hp] at h; exact ih1 h s
    · rename_i hp; rw [if_neg hp] at h; exact ih2 h s

theorem mapP_eq (fl : Word) (u : Nat → Option Content) (P : Visit) (h : WellTyped u P) (S : List Nat) (hc : Causal S P)
    (pre post img : List Byte) (hi : img = pre ++ flatU u P ++ post) (y : Members) (hS : ∀ m ∈ S, (y m).look img = u m) :
    ∃ y', mapP fl img P y pre.length = some (y', pre.length + (flatU u P).length) ∧
      (∀ m, m ∈ S ∨ m ∈ passed u P → (y' m).look img = u m) ∧ ∀ m, m ∉ passed u P → y' m = y m := by
  induction P generalizing S pre y with
  | stop =>
    refine ⟨y, by simp [mapP, flatU], fun m hm => ?_, fun _ _ => rfl⟩
    rcases hm with hm | hm
    · exact hS m hm
    · simp [passed] at hm
  | pod m k rest ih =>
    obtain ⟨⟨bs, h1, h2⟩, h3⟩ := h
    have hf : flatU u (.pod m k rest) = bs ++ flatU u rest := by simp only [flatU, h1]
    rw [hf] at hi ⊢
    have hr := rdBytes_eq (mem := img) (pre := pre) (x := bs) (post := flatU u rest ++ post) (by rw [hi]; simp)
    rw [h2] at hr
    obtain ⟨y', e, g1, g2⟩ := ih h3 (m :: S) hc (pre ++ bs) (by rw [hi]; simp) (y.assign m (.pod bs)) (by
      intro q hq
      unfold Members.assign
      by_cases hqm : q = m
      · rw [if_pos hqm, hqm, h1]; rfl
      · rw [if_neg hqm]
        exact hS q ((List.mem_cons.1 hq).resolve_left hqm))
    rw [List.length_append, h2] at e
    refine ⟨y', ?_, fun q hq => g1 q ?_, fun q hq => ?_⟩
    · rw [mapP, hr, bind_pure_some, e, List.length_append, h2, Nat.add_assoc]
    · rw [passed] at hq
      rcases hq with hq | hq
      · exact Or.inl (List.mem_cons_of_mem _ hq)
      · rcases List.mem_cons.1 hq with rfl | hq
        · exact Or.inl (by simp)
        · exact Or.inr hq
    · rw [passed, List.mem_cons, not_or] at hq
      rw [g2 q hq.2, Members.assign, if_neg hq.1]
  | vec m es rest ih =>
    obtain ⟨⟨xs, h1, h2, h4, h5⟩, h3⟩ := h
    have hl := flatten_length h2
    have hf : flatU u (.vec m es rest) = leEnc 8 xs.length ++ xs.flatten ++ flatU u rest := by simp only [flatU, h1]
    rw [hf] at hi ⊢
    have hr := rdBytes_eq (mem := img) (pre := pre) (x := leEnc 8 xs.length) (post := xs.flatten ++ flatU u rest ++ post) (by rw [hi]; simp)
    rw [leEnc_length] at hr
    have hw : warmupIf fl img es xs.length (pre.length + 8) = some () := by
      unfold warmupIf
      split
      · have := warmup_eq (pre ++ leEnc 8 xs.length) (flatU u rest ++ post) es xs h2
        rw [List.length_append, leEnc_length] at this
        rw [← this, hi]; simp
      · rfl
    have hload : loadElems img es xs.length (pre.length + 8) = some xs := by
      have := loadElems_eq (pre ++ leEnc 8 xs.length) (flatU u rest ++ post) es xs h2
      rw [List.length_append, leEnc_length] at this
      rw [← this, hi]; simp
    obtain ⟨y', e, g1, g2⟩ := ih h3 (m :: S) hc (pre ++ leEnc 8 xs.length ++ xs.flatten) (by rw [hi]; simp)
      (y.assign m (.mapped es (pre.length + 8) xs.length)) (by
      intro q hq
      unfold Members.assign
      by_cases hqm : q = m
      · rw [if_pos hqm, hqm, h1, Cell.look, hload]; rfl
      · rw [if_neg hqm]
        exact hS q ((List.mem_cons.1 hq).resolve_left hqm))
    rw [List.length_append, List.length_append, leEnc_length, hl] at e
    refine ⟨y', ?_, fun q hq => g1 q ?_, fun q hq => ?_⟩
    · rw [mapP, hr, bind_pure_some]
      simp only []
      rw [leDec_leEnc, Nat.mod_eq_of_lt (a := xs.length) (by simpa using h4), Nat.mod_eq_of_lt h5, hw, bind_pure_some, e]
      simp [leEnc_length, hl, Nat.add_assoc]
    · rw [passed] at hq
      rcases hq with hq | hq
      · exact Or.inl (List.mem_cons_of_mem _ hq)
      · rcases List.mem_cons.1 hq with rfl | hq
        · exact Or.inl (by simp)
        · exact Or.inr hq
    · rw [passed, List.mem_cons, not_or] at hq
      rw [g2 q hq.2, Members.assign, if_neg hq.1]
  | test p yes no ih1 ih2 =>
    obtain ⟨c1, c2, c3⟩ := hc
    have hp : p (fun m => (y m).look img) = p u := c1 _ _ hS
    rw [WellTyped] at h
    rw [mapP, hp]
    rw [flatU] at hi ⊢
    rw [passed]
    by_cases hu : p u = true
    · rw [if_pos hu] at h hi ⊢
      rw [if_pos hu, if_pos hu]
      exact ih1 h S c2 pre hi y hS
    · rw [if_neg hu] at h hi ⊢
      rw [if_neg hu, if_neg hu]
      exact ih2 h S c3 pre hi y hS

end Succinct.Mapper
