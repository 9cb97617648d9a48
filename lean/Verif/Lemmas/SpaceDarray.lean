import Verif.Lemmas.Darray

/-! Lengths and ranges of the inventories built by `darray`. -/
namespace Succinct
namespace Darray

/-- what holds of the locals of the constructor before the position `L` or a later one is pushed,
in a vector of `N` bits -/
structure SInv (st : BuildState) (m L N : Nat) : Prop where
  curlen : st.cur.length < 1024
  curlt : ∀ x ∈ st.cur, x < L
  curge : ∀ x ∈ st.cur, 64 * st.inv.overflow.length ≤ x
  ov : 64 * st.inv.overflow.length ≤ L
  le : L ≤ N
  num : 1024 * st.inv.block.length + st.cur.length = m
  sub : st.inv.subblock.length = 32 * st.inv.block.length
  blk : ∀ x ∈ st.inv.block, -(st.inv.overflow.length : Int) ≤ x ∧ x < N
  subr : ∀ x ∈ st.inv.subblock, x < 2^16
  ovr : ∀ x ∈ st.inv.overflow, x < N

/-- what holds of the inventories after a flush -/
structure FInv (d : DInv) (L N : Nat) : Prop where
  ov : 64 * d.overflow.length ≤ L
  blk : ∀ x ∈ d.block, -(d.overflow.length : Int) ≤ x ∧ x < N
  subr : ∀ x ∈ d.subblock, x < 2^16
  ovr : ∀ x ∈ d.overflow, x < N

theorem mapM_some_mem {α β : Type} (f : α → Option β) : ∀ (l : List α) (r : List β), l.mapM f = some r →
    r.length = l.length ∧ ∀ y ∈ r, ∃ x ∈ l, f x = some y
  | [], r, h => by
    simp only [List.mapM_nil, Option.pure_def, Option.some.injEq] at h
    subst h; simp
  | a :: l, r, h => by
    rw [List.mapM_cons] at h
    simp only [Option.bind_eq_bind, Option.bind_eq_some_iff, Option.pure_def, Option.some.injEq] at h
    obtain ⟨y, hy, r', hr', rfl⟩ := h
    obtain ⟨h1, h2⟩ := mapM_some_mem f l r' hr'
    refine ⟨by simp [h1], ?_⟩
    intro z hz
    rcases List.mem_cons.1 hz with rfl | hz
    · exact ⟨a, by simp, hy⟩
    · obtain ⟨x, hx, e⟩ := h2 z hz
      exact ⟨x, by simp [hx], e⟩

theorem subU_eq_some {a b c : Nat} (h : subU a b = some c) : b ≤ a ∧ c = a - b := by
  unfold subU at h; split at h
  · exact ⟨by omega, by simpa using h.symm⟩
  · simp at h

theorem flush_space {cur : List Nat} {d d' : DInv} {L N : Nat} (h : flush cur d = some d') (hlen : cur.length ≤ 1024)
    (hlt : ∀ x ∈ cur, x < L) (hge : ∀ x ∈ cur, 64 * d.overflow.length ≤ x) (hLN : L ≤ N) (hov : 64 * d.overflow.length ≤ L)
    (hblk : ∀ x ∈ d.block, -(d.overflow.length : Int) ≤ x ∧ x < N) (hsubr : ∀ x ∈ d.subblock, x < 2^16)
    (hovr : ∀ x ∈ d.overflow, x < N) :
    FInv d' L N ∧ d'.block.length = d.block.length + 1 ∧ d'.subblock.length = d.subblock.length + (cur.length + 31)/32 := by
  unfold flush at h
  simp only [Option.bind_eq_bind, Option.bind_eq_some_iff] at h
  obtain ⟨back, hb, front, hf, dist, hd, h⟩ := h
  have hbm := List.mem_of_getLast? hb
  have hfm := List.mem_of_head? hf
  obtain ⟨hd1, rfl⟩ := subU_eq_some hd
  have b1 := hlt _ hbm
  have f1 := hlt _ hfm
  have f2 := hge _ hfm
  split at h
  · simp only [Option.bind_eq_some_iff, Option.pure_def, Option.some.injEq] at h
    obtain ⟨offs, ho, rfl⟩ := h
    obtain ⟨ol, om⟩ := mapM_some_mem _ _ _ ho
    refine ⟨⟨hov, ?_, ?_, hovr⟩, by simp, by simp [ol]⟩
    · intro x hx
      rcases List.mem_append.1 hx with hx | hx
      · exact hblk x hx
      · rw [List.mem_singleton] at hx; subst hx
        simp only; omega
    · intro x hx
      rcases List.mem_append.1 hx with hx | hx
      · exact hsubr x hx
      · obtain ⟨k, _, e⟩ := om x hx
        unfold subOffset at e
        simp only [Option.bind_eq_bind, Option.bind_eq_some_iff, Option.pure_def, Option.some.injEq] at e
        obtain ⟨_, _, _, _, rfl⟩ := e
        exact Nat.mod_lt _ (by decide)
  · simp only [Option.pure_def, Option.some.injEq] at h
    subst h
    have hne : 0 < cur.length := List.length_pos_of_mem hbm
    refine ⟨⟨?_, ?_, ?_, ?_⟩, by simp, by simp⟩
    · simp only [List.length_append]; omega
    · intro x hx
      simp only [List.length_append]
      rcases List.mem_append.1 hx with hx | hx
      · have := hblk x hx; omega
      · rw [List.mem_singleton] at hx; subst hx
        omega
    · intro x hx
      rcases List.mem_append.1 hx with hx | hx
      · exact hsubr x hx
      · obtain ⟨_, _, rfl⟩ := List.mem_map.1 hx; omega
    · intro x hx
      rcases List.mem_append.1 hx with hx | hx
      · exact hovr x hx
      · have := hlt x hx; omega

theorem pushPos_space {st st' : BuildState} {m L N p : Nat} (h : pushPos st p = some st') (hi : SInv st m L N)
    (hp : L ≤ p) (hpN : p < N) : SInv st' (m+1) (p+1) N := by
  have hlt : ∀ x ∈ st.cur ++ [p], x < p+1 := by
    intro x hx
    rcases List.mem_append.1 hx with hx | hx
    · have := hi.curlt x hx; omega
    · rw [List.mem_singleton] at hx; omega
  have hge : ∀ x ∈ st.cur ++ [p], 64 * st.inv.overflow.length ≤ x := by
    intro x hx
    rcases List.mem_append.1 hx with hx | hx
    · exact hi.curge x hx
    · rw [List.mem_singleton] at hx; have := hi.ov; omega
  have hov := hi.ov
  have hnum := hi.num
  have hsub := hi.sub
  have hcl := hi.curlen
  unfold pushPos at h
  simp only [] at h
  split at h
  · next hl =>
    simp only [Option.bind_eq_bind, Option.bind_eq_some_iff, Option.pure_def, Option.some.injEq] at h
    obtain ⟨d, hd, rfl⟩ := h
    obtain ⟨hF, l1, l2⟩ := flush_space hd (by omega) hlt hge (by omega : p+1 ≤ N) (by omega) hi.blk hi.subr hi.ovr
    rw [hl] at l2
    rw [List.length_append, List.length_singleton] at hl
    exact ⟨by simp, by simp, by simp, hF.ov, by omega, by simp only [List.length_nil]; omega, by simp only; omega, hF.blk, hF.subr, hF.ovr⟩
  · next hl =>
    simp only [Option.pure_def, Option.some.injEq] at h
    subst h
    rw [List.length_append, List.length_singleton] at hl
    exact ⟨by simp only [List.length_append, List.length_singleton]; omega, hlt, hge, by simp only; omega, by omega,
      by simp only [List.length_append, List.length_singleton]; omega, hi.sub, hi.blk, hi.subr, hi.ovr⟩

theorem fold_space {N : Nat} : ∀ (P : List Nat) (st st' : BuildState) (m L : Nat), P.foldlM pushPos st = some st' → SInv st m L N →
    (∀ x ∈ P, L ≤ x ∧ x < N) → P.Pairwise (· < ·) → ∃ L', SInv st' (m + P.length) L' N
  | [], st, st', m, L, h, hi, _, _ => by
    simp only [List.foldlM_nil, Option.pure_def, Option.some.injEq] at h
    subst h; exact ⟨L, hi⟩
  | p :: P, st, st', m, L, h, hi, hr, hp => by
    rw [List.foldlM_cons] at h
    simp only [Option.bind_eq_bind, Option.bind_eq_some_iff] at h
    obtain ⟨s1, h1, h2⟩ := h
    have hp0 := hr p (by simp)
    rw [List.pairwise_cons] at hp
    obtain ⟨L', r⟩ := fold_space P s1 st' (m+1) (p+1) h2 (pushPos_space h1 hi hp0.1 hp0.2) (fun x hx => ⟨hp.1 x hx, (hr x (by simp [hx])).2⟩) hp.2
    exact ⟨L', by rw [List.length_cons, show m + (P.length + 1) = m + 1 + P.length by omega]; exact r⟩

theorem build_space (neg : Bool) (bv : BitVector) (hs : bv.size ≤ 64 * bv.bits.length) (d : Darray) (h : build neg bv = some d) :
    FInv d.inv bv.size bv.size ∧ d.inv.block.length = (cnt (gbit neg bv.bits) bv.size + 1023)/1024 ∧
      d.inv.subblock.length = (cnt (gbit neg bv.bits) bv.size + 31)/32 := by
  unfold build at h
  have hl := onesIn_length (gbit neg bv.bits) bv.size
  rw [scan_eq neg bv.bits bv.size bv.bits.length 0 _ (by omega) hs, Nat.mul_zero] at h
  have hr : ∀ x ∈ onesIn (gbit neg bv.bits) 0 bv.size, 0 ≤ x ∧ x < bv.size := by
    intro x hx
    unfold onesIn at hx
    have := (List.mem_filter.1 hx).1
    rw [List.mem_range'_1] at this; omega
  have hp : (onesIn (gbit neg bv.bits) 0 bv.size).Pairwise (· < ·) := by
    unfold onesIn
    exact (List.pairwise_lt_range' (step := 1)).filter _
  generalize onesIn (gbit neg bv.bits) 0 bv.size = P at *
  simp only [Option.bind_eq_bind, Option.bind_eq_some_iff] at h
  obtain ⟨st, h1, h⟩ := h
  obtain ⟨L, hi⟩ := fold_space (N := bv.size) P _ st 0 0 h1 ⟨by simp, by simp, by simp, by simp, by omega, by simp, by simp, by simp, by simp, by simp⟩ hr hp
  rw [hl, Nat.zero_add] at hi
  have hnum := hi.num
  have hsub := hi.sub
  have hcl := hi.curlen
  have hov := hi.ov
  have hle := hi.le
  split at h
  · next h0 =>
    simp only [Option.bind_eq_some_iff, Option.pure_def, Option.some.injEq] at h
    obtain ⟨v, hv, rfl⟩ := h
    obtain ⟨hF, l1, l2⟩ := flush_space hv (by omega) hi.curlt hi.curge hi.le hi.ov hi.blk hi.subr hi.ovr
    have := hF.ov
    exact ⟨⟨by simp only; omega, hF.blk, hF.subr, hF.ovr⟩, by simp only; omega, by simp only; omega⟩
  · next h0 =>
    simp only [Option.pure_def, Option.some.injEq] at h
    subst h
    exact ⟨⟨by simp only; omega, hi.blk, hi.subr, hi.ovr⟩, by simp only; omega, by simp only; omega⟩

end Darray
end Succinct
