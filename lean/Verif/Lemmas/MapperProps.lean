import Verif.Lemmas.Mapper
import Verif.Spec.Mapper

namespace Succinct.Mapper
open RSBitVector (bind_pure_some)
open Spec

section
variable {α : Type} {c : Codec α} (hc : c.Lawful)
include hc

theorem Codec.Lawful.top_wf {x : α} (h : c.fits x) (name : String) : (top c name x).WF := (Codec.obj_lawful name hc).wf x _ h trivial
theorem Codec.Lawful.top_lay {x : α} (h : c.fits x) (name : String) : (top c name x).lay = topLay c name := (Codec.obj_lawful name hc).layEq x _ h

theorem freeze_top {x : α} (h : c.fits x) (name : String) (flags : Nat) :
    freeze (top c name x) flags = some ⟨leEnc 8 flags ++ (top c name x).flat, 8 + (top c name x).flat.length⟩ := by
  unfold freeze
  rw [freezeV_eq _ (hc.top_wf h name)]
  simp [Out.put]

theorem map_top {x : α} (h : c.fits x) (name : String) (flags : Nat) (mf : Word) (tail : List Byte) :
    map (topLay c name) (leEnc 8 flags ++ (top c name x).flat ++ tail) mf =
      some ((top c name x).place 8, 8 + (top c name x).flat.length) := by
  unfold map
  have hr : rdBytes (leEnc 8 flags ++ (top c name x).flat ++ tail) 0 8 = some (leEnc 8 flags) := by
    have := rdBytes_eq (mem := leEnc 8 flags ++ (top c name x).flat ++ tail) (pre := []) (x := leEnc 8 flags)
      (post := (top c name x).flat ++ tail) (by simp)
    rwa [leEnc_length] at this
  rw [hr, bind_pure_some, ← hc.top_lay h name]
  have := mapV_eq mf _ (hc.top_wf h name) (leEnc 8 flags) tail
  rwa [leEnc_length] at this

theorem Codec.Lawful.restores : Restores c := by
  intro x h flags mf name tail
  refine ⟨_, _, _, top c name x, freeze_top hc h name flags, map_top hc h name flags mf tail, ?_, (Codec.obj_lawful name hc).getPut x _ h⟩
  have := load_place _ (hc.top_wf h name) (leEnc 8 flags) tail
  rwa [leEnc_length] at this

omit hc in
theorem top_flat (n n' : String) (x : α) : (top c n x).flat = (top c n' x).flat := rfl

theorem Codec.Lawful.accounts : Accounts c := by
  intro x h flags mf name tail
  refine ⟨_, (top c name x).place 8, freeze_top hc h name flags, by simp [leEnc_length], ?_, ?_⟩
  · rw [map_top hc h name flags mf tail]; simp [leEnc_length]
  · unfold sizeBytes
    rw [sizeV_eq _ (hc.top_wf h "")]
    simp [leEnc_length, top_flat "" name]; omega

theorem Codec.Lawful.truncation : DetectsTruncation c := by
  intro x h flags mf name out ho k hk m n hm
  rw [freeze_top hc h name flags] at ho
  cases ho
  simp only [] at hk hm ⊢
  by_cases hl : load ((leEnc 8 flags ++ (top c name x).flat).take k) m = none
  · exact hl
  · exfalso
    obtain ⟨w, hw⟩ := Option.ne_none_iff_exists'.1 hl
    have hfull := map_top hc h name flags mf []
    unfold map at hm hfull
    obtain ⟨b, h1, h2⟩ := bind_some hm
    obtain ⟨b', _, h3⟩ := bind_some hfull
    have h8 := rdBytes_le h1
    have hle := mapV_load_le _ _ _ _ _ (by omega) h2 hw
    have := mapV_mono ((leEnc 8 flags ++ (top c name x).flat).drop k) _ _ _ h2
    rw [List.take_append_drop] at this
    rw [List.append_nil] at h3
    rw [h3] at this
    cases this
    rw [List.length_take] at hle
    rw [List.length_append, leEnc_length] at hk hle
    omega
end

/-! size trees -/

theorem treeV_spec (v : Val) (h : v.WF) (s : Nat) : Describes v (treeV v s).2 ∧ (treeV v s).1 = s + v.flat.length ∧
    nodesTotal (treeV v s).2 + podBytes v = v.flat.length := by
  induction v generalizing s with
  | done => exact ⟨.done, rfl, rfl⟩
  | pod n bs rest ih =>
    obtain ⟨h1, h2, h3⟩ := ih h (s + bs.length)
    simp only [treeV]
    refine ⟨.pod _ _ h1, ?_, ?_⟩
    · rw [h2]; simp [Val.flat, Nat.add_assoc]
    · simp only [podBytes, Val.flat, List.length_append]; omega
  | vec n es xs rest ih =>
    obtain ⟨hw1, hw2, hw3, hw4⟩ := h
    have hl := flatten_length hw1
    simp only [treeV]
    rw [Nat.mod_eq_of_lt hw3]
    obtain ⟨h1, h2, h3⟩ := ih hw4 (s + 8 + xs.length * es)
    refine ⟨?_, ?_, ?_⟩
    · have e : s + 8 + xs.length * es - s = 8 + xs.flatten.length := by omega
      rw [e]; exact .vec _ _ _ h1
    · rw [h2]; simp only [Val.flat, List.length_append, leEnc_length]; omega
    · simp only [podBytes, nodesTotal, Val.flat, List.length_append, leEnc_length]; omega
  | obj n inner rest ih1 ih2 =>
    obtain ⟨a1, a2, a3⟩ := ih1 h.1 s
    simp only [treeV]
    obtain ⟨b1, b2, b3⟩ := ih2 h.2 (treeV inner s).1
    refine ⟨?_, ?_, ?_⟩
    · have e : (treeV inner s).1 - s = nodesTotal (treeV inner s).2 + podBytes inner := by omega
      rw [e]; exact .obj _ a1 b1
    · rw [b2]; simp only [Val.flat, List.length_append]; omega
    · simp only [podBytes, nodesTotal, Val.flat, List.length_append]; omega

/-- names of the fields that are not PODs -/
def Lay.names : Lay → List String
  | .done => []
  | .pod _ _ rest => rest.names
  | .vec n _ rest => n :: rest.names
  | .obj n _ rest => n :: rest.names

theorem describes_names {v : Val} {ns : Nodes} (h : Describes v ns) : nodeNames ns = v.lay.names := by
  induction h with
  | done => rfl
  | pod n bs _ ih => exact ih
  | vec n es xs _ ih => simp only [nodeNames, Val.lay, Lay.names, ih]
  | obj n _ _ _ ih => simp only [nodeNames, Val.lay, Lay.names, ih]

theorem Codec.Lawful.tree {α : Type} {c : Codec α} (hc : c.Lawful) (names : List String) (hn : (c.lay .done).names = names) : TreeSpec c names := by
  intro x h name
  have hwf := hc.wf x .done h trivial
  obtain ⟨h1, h2, h3⟩ := treeV_spec (c.put x .done) hwf 0
  refine ⟨(treeV (c.put x .done) 0).1 - 0, (treeV (c.put x .done) 0).2, ?_, ?_, ?_, h1, ?_⟩
  · simp [sizeTreeOf, top, Codec.obj, treeV]
  · simp only [sizeBytes, top, Codec.obj, sizeV]
    rw [sizeV_eq _ hwf, h2]; rfl
  · omega
  · rw [describes_names h1, hc.layEq x _ h, ← hn]; rfl

/-! alignment -/

/-- no vectors -/
def Lay.plain : Lay → Bool
  | .done => true
  | .pod _ _ rest => rest.plain
  | .vec _ _ _ => false
  | .obj _ i rest => i.plain && rest.plain

/-- every field takes a multiple of 8 bytes -/
def Lay.unit8 : Lay → Bool
  | .done => true
  | .pod _ k rest => k % 8 == 0 && rest.unit8
  | .vec _ es rest => es % 8 == 0 && rest.unit8
  | .obj _ i rest => i.unit8 && rest.unit8

/-- sufficient for alignment -/
def Lay.safe : Lay → Bool
  | .done => true
  | .pod _ k rest => (k % 8 == 0 && rest.safe) || rest.plain
  | .vec _ es rest => 8 % es == 0 && ((es % 8 == 0 && rest.safe) || rest.plain)
  | .obj _ i rest => i.safe && ((i.unit8 && rest.safe) || rest.plain)

theorem plain_vectors {fl : Word} {img : List Byte} {l : Lay} (hp : l.plain = true) {pos : Nat} {m : MVal} {p : Nat}
    (h : mapV fl img l pos = some (m, p)) : vectors m = [] := by
  induction l generalizing pos m p with
  | done => rw [mapV] at h; cases h; rfl
  | pod n k rest ih =>
    rw [mapV] at h
    obtain ⟨bs, h1, h2⟩ := bind_some h
    obtain ⟨⟨a, q⟩, h3, h4⟩ := bind_some h2
    cases h4
    rw [vectors]; exact ih hp h3
  | vec n es rest ih => simp [Lay.plain] at hp
  | obj n i rest ih1 ih2 =>
    simp only [Lay.plain, Bool.and_eq_true] at hp
    rw [mapV] at h
    obtain ⟨⟨a, q⟩, h1, h2⟩ := bind_some h
    simp only [] at h2
    obtain ⟨⟨b, q'⟩, h3, h4⟩ := bind_some h2
    cases h4
    simp [vectors, ih1 hp.1 h1, ih2 hp.2 h3]

theorem unit8_pos {fl : Word} {img : List Byte} {l : Lay} (hu : l.unit8 = true) {pos : Nat} {m : MVal} {p : Nat} (h8 : pos % 8 = 0)
    (h : mapV fl img l pos = some (m, p)) : p % 8 = 0 := by
  induction l generalizing pos m p with
  | done => rw [mapV] at h; cases h; exact h8
  | pod n k rest ih =>
    simp only [Lay.unit8, Bool.and_eq_true, beq_iff_eq] at hu
    rw [mapV] at h
    obtain ⟨bs, h1, h2⟩ := bind_some h
    obtain ⟨⟨a, q⟩, h3, h4⟩ := bind_some h2
    cases h4
    exact ih hu.2 (by omega) h3
  | vec n es rest ih =>
    simp only [Lay.unit8, Bool.and_eq_true, beq_iff_eq] at hu
    rw [mapV] at h
    obtain ⟨bs, h1, h2⟩ := bind_some h
    simp only [] at h2
    obtain ⟨u, _, h6⟩ := bind_some h2
    obtain ⟨⟨a, q⟩, h3, h4⟩ := bind_some h6
    cases h4
    have : leDec bs * es % 8 = 0 := by rw [Nat.mul_mod, hu.1]; simp
    exact ih hu.2 (by omega) h3
  | obj n i rest ih1 ih2 =>
    simp only [Lay.unit8, Bool.and_eq_true] at hu
    rw [mapV] at h
    obtain ⟨⟨a, q⟩, h1, h2⟩ := bind_some h
    simp only [] at h2
    obtain ⟨⟨b, q'⟩, h3, h4⟩ := bind_some h2
    cases h4
    exact ih2 hu.2 (ih1 hu.1 h8 h1) h3

theorem safe_vectors {fl : Word} {img : List Byte} {l : Lay} (hs : l.safe = true) {pos : Nat} {m : MVal} {p : Nat} (h8 : pos % 8 = 0)
    (h : mapV fl img l pos = some (m, p)) : ∀ v ∈ vectors m, v.2.1 % v.1 = 0 := by
  induction l generalizing pos m p with
  | done => rw [mapV] at h; cases h; simp [vectors]
  | pod n k rest ih =>
    simp only [Lay.safe, Bool.and_eq_true, Bool.or_eq_true, beq_iff_eq] at hs
    rw [mapV] at h
    obtain ⟨bs, h1, h2⟩ := bind_some h
    obtain ⟨⟨a, q⟩, h3, h4⟩ := bind_some h2
    cases h4
    rcases hs with hs | hs
    · rw [vectors]; exact ih hs.2 (by omega) h3
    · simp [vectors, plain_vectors hs h3]
  | vec n es rest ih =>
    simp only [Lay.safe, Bool.and_eq_true, Bool.or_eq_true, beq_iff_eq] at hs
    rw [mapV] at h
    obtain ⟨bs, h1, h2⟩ := bind_some h
    simp only [] at h2
    obtain ⟨u, _, h6⟩ := bind_some h2
    obtain ⟨⟨a, q⟩, h3, h4⟩ := bind_some h6
    cases h4
    have hd : (pos + 8) % es = 0 := by
      apply Nat.mod_eq_zero_of_dvd
      exact Nat.dvd_trans (Nat.dvd_of_mod_eq_zero hs.1) (Nat.dvd_of_mod_eq_zero (by omega))
    rintro v hv
    rcases List.mem_cons.1 hv with rfl | hv
    · exact hd
    · rcases hs.2 with hs | hs
      · have : leDec bs * es % 8 = 0 := by rw [Nat.mul_mod, hs.1]; simp
        exact ih hs.2 (by omega) h3 v hv
      · rw [plain_vectors hs h3] at hv; simp at hv
  | obj n i rest ih1 ih2 =>
    simp only [Lay.safe, Bool.and_eq_true, Bool.or_eq_true] at hs
    rw [mapV] at h
    obtain ⟨⟨a, q⟩, h1, h2⟩ := bind_some h
    simp only [] at h2
    obtain ⟨⟨b, q'⟩, h3, h4⟩ := bind_some h2
    cases h4
    rintro v hv
    rcases List.mem_append.1 hv with hv | hv
    · exact ih1 hs.1 h8 h1 v hv
    · rcases hs.2 with hs | hs
      · exact ih2 hs.2 (unit8_pos hs.1 h8 h1) h3 v hv
      · rw [plain_vectors hs h3] at hv; simp at hv

theorem aligned_of_safe {α : Type} {c : Codec α} (hs : (c.lay .done).safe = true) : Aligned c := by
  intro x _ flags mf name out m n _ hm
  unfold map at hm
  obtain ⟨b, _, h⟩ := bind_some hm
  refine safe_vectors (l := topLay c name) ?_ (by decide) h
  simp [topLay, Codec.obj, Lay.safe, hs, Lay.plain]

end Succinct.Mapper
