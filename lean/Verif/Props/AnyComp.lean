import Mathlib.Data.List.Perm.Subperm
import Verif.Spec.Stack
import Verif.Props.Ties

/-! # C93: `cartesian_tree` with an arbitrary comparator -/
namespace Succinct
open Spec
open RSBitVector (bind_pure_some)

section
variable {α : Type} (comp : α → α → Bool) (v : List α)

theorem running_lt (i : Nat) : ∀ k ∈ running comp v i, k < i := by
  induction i with
  | zero => simp [running]
  | succ i ih =>
    intro k hk
    rw [running] at hk
    rcases List.mem_cons.1 hk with rfl | hk
    · omega
    · have := ih k ((List.dropWhile_suffix _).subset hk); omega

/-- the indices in the running decrease -/
theorem running_sorted (i : Nat) : (running comp v i).Pairwise (· > ·) := by
  induction i with
  | zero => exact .nil
  | succ i ih =>
    rw [running, List.pairwise_cons]
    exact ⟨fun k hk => running_lt comp v i k ((List.dropWhile_suffix _).subset hk), ih.sublist (List.dropWhile_suffix _).sublist⟩

/-- who is out stays out -/
theorem running_anti {i j k : Nat} (hij : i ≤ j) (hk : k < i) (h : k ∈ running comp v j) : k ∈ running comp v i := by
  induction j with
  | zero => rw [Nat.le_zero.1 hij]; exact h
  | succ j ih =>
    rcases Nat.lt_or_ge j i with g | g
    · rw [show i = j + 1 by omega]; exact h
    · rw [running] at h
      rcases List.mem_cons.1 h with h | h
      · omega
      · exact ih g ((List.dropWhile_suffix _).subset h)

/-- who is in the running has kept below it those it had when it came -/
theorem running_suffix {m j : Nat} (hmj : m < j) (h : m ∈ running comp v j) : running comp v (m + 1) <:+ running comp v j := by
  induction j with
  | zero => omega
  | succ j ih =>
    by_cases e : m = j
    · rw [e]; exact List.suffix_refl _
    · have h' := h
      rw [running] at h
      have h := (List.mem_cons.1 h).resolve_left e
      have hs := ih (by omega) ((List.dropWhile_suffix _).subset h)
      have hd : (running comp v j).dropWhile (fun k => prefers comp v[j]? v[k]?) <:+ running comp v j := List.dropWhile_suffix _
      rw [running.eq_2 comp v j]
      refine List.IsSuffix.trans ?_ (List.suffix_cons _ _)
      rcases List.suffix_or_suffix_of_suffix hs hd with g | g
      · exact g
      · -- both begin no later than `m`
        rw [running] at g ⊢
        rcases List.suffix_cons_iff.1 g with g | g
        · rw [g]; exact List.suffix_refl _
        · have := running_lt comp v m m ((List.dropWhile_suffix _).subset (g.subset h))
          omega

theorem stk_running (i : Nat) (hi : i ≤ v.length) : (Cart.stk comp v i).map some = (running comp v i).map (v[·]?) := by
  induction i with
  | zero => rfl
  | succ i ih =>
    have ih := ih (by omega)
    rw [Cart.stk_succ comp v i hi, running, List.map_cons, List.map_cons, List.getElem?_eq_getElem hi]
    congr 1
    generalize Cart.stk comp v i = s at ih ⊢
    generalize running comp v i = r at ih ⊢
    induction s generalizing r with
    | nil =>
      cases r with
      | nil => rfl
      | cons k r => cases ih
    | cons x s ihs =>
      cases r with
      | nil => cases ih
      | cons k r =>
        rw [List.map_cons, List.map_cons] at ih
        injection ih with h1 h2
        rw [List.dropWhile_cons, List.dropWhile_cons, ← h1]
        show List.map some (if comp v[i] x = true then _ else _) = List.map _ (if comp v[i] x = true then _ else _)
        by_cases hc : comp v[i] x = true
        · rw [if_pos hc, if_pos hc]
          exact ihs r h2
        · rw [if_neg hc, if_neg hc, List.map_cons, List.map_cons, h1, h2]

theorem stk_length (i : Nat) (hi : i ≤ v.length) : (Cart.stk comp v i).length = (running comp v i).length := by
  have := congrArg List.length (stk_running comp v i hi)
  rwa [List.length_map, List.length_map] at this

theorem firstRunning_exists (a b : Nat) (hab : a ≤ b) : ∃ m, IsFirstRunning comp v a b m := by
  classical
  have hex : ∃ m, a ≤ m ∧ m ∈ running comp v (b + 1) := ⟨b, hab, by rw [running]; exact List.mem_cons_self⟩
  exact ⟨Nat.find hex, (Nat.find_spec hex).1, (Nat.find_spec hex).2, fun i hi ha => Nat.find_min' hex ⟨ha, hi⟩⟩

theorem firstRunning_heights {a b m : Nat} (h : IsFirstRunning comp v a b m) :
    m ≤ b ∧ (∀ j, a ≤ j → j < m → (running comp v (m+1)).length ≤ (running comp v (j+1)).length) ∧
      ∀ j, m < j → j ≤ b → (running comp v (m+1)).length < (running comp v (j+1)).length := by
  obtain ⟨h1, h2, h3⟩ := h
  have hmb := running_lt comp v _ m h2
  refine ⟨by omega, fun j j1 j2 => ?_, fun j j1 j2 => ?_⟩
  · -- below `m` there are only indices before `a`, and these are in the running after `j`, below `j`
    have hs := running_suffix comp v hmb h2
    have hsort := running_sorted comp v (m+1)
    rw [running, List.pairwise_cons] at hsort
    rw [running, running, List.length_cons, List.length_cons]
    refine Nat.succ_le_succ (List.Subperm.length_le (List.Nodup.subperm ?_ ?_))
    · exact hsort.2.imp (fun h => Nat.ne_of_gt h)
    · intro k hk
      have hkm : k ∈ running comp v (m+1) := by rw [running]; exact List.mem_cons_of_mem _ hk
      have hka : k < a := by
        by_contra hc
        have := h3 k (hs.subset hkm) (by omega)
        have := hsort.1 k hk
        omega
      have := running_anti comp v (i := j+1) (by omega) (by omega) hkm
      rw [running] at this
      rcases List.mem_cons.1 this with h | h
      · omega
      · exact h
  · have hm : m ∈ running comp v (j+1) := running_anti comp v (by omega) (by omega) h2
    have hm' := hm
    rw [running] at hm
    have hm := (List.mem_cons.1 hm).resolve_left (by omega)
    have := (running_suffix comp v (show m < j by omega) ((List.dropWhile_suffix _).subset hm)).length_le
    have hs := running_suffix comp v (show m < j + 1 by omega) hm'
    rcases List.suffix_cons_iff.1 (show running comp v (m+1) <:+ j :: _ from by rw [running.eq_2 comp v j] at hs; exact hs) with g | g
    · rw [running] at g
      injection g with g _
      omega
    · have := g.length_le
      rw [running.eq_2 comp v j, List.length_cons]
      omega
end

/-- **C93.**  For every sequence and every comparator whatever, an order or not, construction succeeds and `rmq(a, b)` answers, without failing an
assertion, the first index from `a` on that is in the running after `v[b]`; that is an index in `[a, b]`. -/
theorem C93_rmq {α : Type} (comp : α → α → Bool) (v : List α) (hv : v.length < 2^30 - 1) :
    ∃ t, CartesianTree.build comp v = some t ∧
      ∀ a b, a ≤ b → b < v.length → ∃ m, t.rmq a b = some m ∧ a ≤ m ∧ m ≤ b ∧ IsFirstRunning comp v a b m := by
  obtain ⟨t, e, hb, hi⟩ := CartesianTree.build_spec comp v hv 0 false
  refine ⟨t, by rw [CartesianTree.build_eq, e], fun a b hab hbv => ?_⟩
  obtain ⟨m, hm⟩ := firstRunning_exists comp v a b hab
  obtain ⟨h1, h2, h3⟩ := firstRunning_heights comp v hm
  refine ⟨m, ?_, hm.1, h1, hm⟩
  refine CartesianTree.rmq_height comp hv hb hi a b m hm.1 h1 hbv (fun j j1 j2 => ?_) (fun j j1 j2 => ?_)
  · rw [stk_length comp v _ (by omega), stk_length comp v _ (by omega)]; exact h2 j j1 j2
  · rw [stk_length comp v _ (by omega), stk_length comp v _ (by omega)]; exact h3 j j1 j2

/-- the first index in the running is unique, so C93 determines the answer -/
theorem C93_unique {α : Type} (comp : α → α → Bool) (v : List α) (a b m m' : Nat) (h : IsFirstRunning comp v a b m) (h' : IsFirstRunning comp v a b m') : m = m' :=
  Nat.le_antisymm (h.2.2 m' h'.2.1 h'.1) (h'.2.2 m h.2.1 h.1)

/-- **C93** for a value that the comparator holds neither preferable nor less preferable to any other, such as a floating point NaN: if it is at `p` in the range
`[a, b]`, the answer is that for the elements before it, and `p` if there are none.  Whatever comes after it is ignored. -/
theorem C93_unordered {α : Type} (comp : α → α → Bool) (v : List α) (hv : v.length < 2^30 - 1) (p : Nat) (x : α) (hp : v[p]? = some x)
    (hx : ∀ y ∈ v, comp x y = false ∧ comp y x = false) :
    ∃ t, CartesianTree.build comp v = some t ∧ ∀ a b, a ≤ p → p ≤ b → b < v.length →
      t.rmq a b = if a = p then some p else t.rmq a (p - 1) := by
  obtain ⟨t, e, h⟩ := C93_rmq comp v hv
  refine ⟨t, e, fun a b hap hpb hbv => ?_⟩
  have hout : ∀ k : Nat, prefers comp v[k]? v[p]? = false := by
    intro k
    rw [hp]
    cases hk : v[k]? with
    | none => rfl
    | some y => exact (hx y (List.mem_of_getElem? hk)).2
  have hout' : ∀ k : Nat, prefers comp v[p]? v[k]? = false := by
    intro k
    rw [hp]
    cases hk : v[k]? with
    | none => rfl
    | some y => exact (hx y (List.mem_of_getElem? hk)).1
  have dw : ∀ (q : Nat → Bool) (l : List Nat), (∀ k, q k = false) → l.dropWhile q = l := by
    intro q l hq
    cases l with
    | nil => rfl
    | cons y l => rw [List.dropWhile_cons, hq]; rfl
  have hp1 : running comp v (p+1) = p :: running comp v p := by rw [running, dw _ _ hout']
  -- `p` never goes, so nothing below it does
  have key : ∀ j, p < j → p ∈ running comp v j := by
    intro j
    induction j with
    | zero => omega
    | succ j ih =>
      intro hj
      rw [running]
      by_cases e : p = j
      · rw [e]; exact List.mem_cons_self
      · refine List.mem_cons_of_mem _ ?_
        have := ih (by omega)
        generalize running comp v j = l at this
        induction l with
        | nil => exact this
        | cons y l ihl =>
          rw [List.dropWhile_cons]
          by_cases hq : prefers comp v[j]? v[y]? = true
          · rw [if_pos hq]
            refine ihl ((List.mem_cons.1 this).resolve_left ?_)
            rintro rfl
            rw [hout] at hq; cases hq
          · rw [if_neg hq]; exact this
  have keep : ∀ k, k ≤ p → (k ∈ running comp v (b+1) ↔ k ∈ running comp v (p+1)) := fun k hk =>
    ⟨fun h => running_anti comp v (by omega) (by omega) h, fun h => (running_suffix comp v (show p < b+1 by omega) (key (b+1) (by omega))).subset h⟩
  obtain ⟨m, e1, m1, m2, h1, h2, h3⟩ := h a b (by omega) hbv
  have hmp : m ≤ p := h3 p (key (b+1) (by omega)) hap
  have hmr := (keep m hmp).1 h2
  rw [hp1] at hmr
  by_cases hap' : a = p
  · rw [if_pos hap', e1, show m = p by omega]
  · rw [if_neg hap']
    obtain ⟨m', e2, k1, k2, g1, g2, g3⟩ := h a (p-1) (by omega) (by omega)
    rw [show p - 1 + 1 = p by omega] at g2 g3
    rw [e1, e2]
    congr 1
    have hm' : m' ∈ running comp v (b+1) := (keep m' (by omega)).2 (by rw [hp1]; exact List.mem_cons_of_mem _ g2)
    have h4 := h3 m' hm' g1
    rcases List.mem_cons.1 hmr with h | h
    · omega
    · exact Nat.le_antisymm h4 (g3 m h h1)

/-- numbers and one value that compares with nothing -/
def nanLt : Option Int → Option Int → Bool
  | some x, some y => decide (x < y)
  | _, _ => false

/-- **C93**: a NaN hides smaller values behind it: the minimum of 3, NaN, 1 is said to be 3 -/
theorem C93_nan_false : (CartesianTree.build nanLt [some 3, none, some 1] >>= fun t => t.rmq 0 2) = some 0 ∧ nanLt (some 1) (some 3) = true := by decide +kernel

/-- a cyclic comparator: the running ones -/
example : running (fun x y : Nat => decide ((x + 1) % 3 = y)) [2, 0, 1, 0, 1, 2] 6 = [5, 4, 3, 1, 0] ∧
    (CartesianTree.build (fun x y : Nat => decide ((x + 1) % 3 = y)) [2, 0, 1, 0, 1, 2] >>= fun t => t.rmq 2 5) = some 3 := by decide +kernel
example : (∀ y ∈ [some 3, none, some 1], nanLt none y = false ∧ nanLt y none = false) ∧ [some (3 : Int), none, some 1][1]? = some none := by decide

end Succinct
