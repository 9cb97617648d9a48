import Mathlib.Tactic.ByContra
import Verif.Model.PerfFano
import Verif.Lemmas.Machine

/-! The generator of nondecreasing sequences of `perftest_elias_fano.cpp`. -/
namespace Succinct
namespace Perf
open RSBitVector (bind_pure_some)

/-- the stack holds disjoint intervals in increasing order, from `lo` on -/
def Chain (bits : Nat) : Nat → List Node → Prop
  | lo, [] => lo ≤ 2^bits
  | lo, n :: st => lo ≤ n.word.toNat ∧ 0 < n.m ∧ n.depth ≤ bits ∧ 2^(bits - n.depth) ∣ n.word.toNat ∧
      Chain bits (n.word.toNat + 2^(bits - n.depth)) st

/-- how many values are still to come -/
def total (st : List Node) : Nat := (st.map Node.m).sum

theorem Chain.le {bits : Nat} : ∀ {st : List Node} {lo : Nat}, Chain bits lo st → lo ≤ 2^bits
  | [], _, h => h
  | n :: st, lo, ⟨h1, _, _, _, h5⟩ => by have := Chain.le h5; omega

theorem Chain.mono {bits lo lo' : Nat} {st : List Node} (h : Chain bits lo st) (hl : lo' ≤ lo) : Chain bits lo' st := by
  cases st with
  | nil => exact Nat.le_trans hl h
  | cons n st => exact ⟨Nat.le_trans hl h.1, h.2⟩

/-- setting the bit of a right child -/
theorem or_pow (bits depth : Nat) (w : Word) (hb : bits ≤ 64) (hd : depth < bits) (hw : 2^(bits - depth) ∣ w.toNat) :
    shl 1 (bits - depth - 1) = some ((1 : Word) <<< (bits - depth - 1)) ∧
    (w ||| (1 : Word) <<< (bits - depth - 1)).toNat = w.toNat + 2^(bits - depth - 1) := by
  refine ⟨shl_eq _ _ (by omega), ?_⟩
  obtain ⟨q, hq⟩ := hw
  have h1 : ((1 : Word) <<< (bits - depth - 1)).toNat = 2^(bits - depth - 1) := by
    rw [BitVec.toNat_shiftLeft]
    show (1 <<< (bits - depth - 1)) % 2^64 = _
    rw [Nat.shiftLeft_eq, Nat.one_mul, Nat.mod_eq_of_lt (Nat.pow_lt_pow_right (by omega) (by omega))]
  rw [BitVec.toNat_or, h1, hq, Nat.two_pow_add_eq_or_of_lt (Nat.pow_lt_pow_right (by omega) (by omega))]

theorem pow_split {e : Nat} (h : 0 < e) : 2^e = 2^(e-1) + 2^(e-1) := by
  obtain ⟨k, rfl⟩ : ∃ k, e = k + 1 := ⟨e - 1, by omega⟩
  rw [Nat.add_sub_cancel, Nat.pow_succ]; omega

/-- one iteration of the loop -/
theorem step_ok {bits lo : Nat} (hb : bits ≤ 64) {cur : Node} {st : List Node} (h : Chain bits lo (cur :: st)) (hd : cur.depth < bits)
    (left : Nat) (hl : left ≤ cur.m) :
    ∃ st1 top st', pushRight bits cur (cur.m - left) st = some st1 ∧ pushLeft cur left st1 = top :: st' ∧ top.depth = cur.depth + 1 ∧
      Chain bits lo (top :: st') ∧ total (top :: st') = total (cur :: st) := by
  obtain ⟨h1, h2, h3, h4, h5⟩ := h
  obtain ⟨e1, e2⟩ := or_pow bits cur.depth cur.word hb hd h4
  have hp := pow_split (e := bits - cur.depth) (by omega)
  have hs : bits - cur.depth - 1 = bits - (cur.depth + 1) := by omega
  have hdv : 2^(bits - (cur.depth + 1)) ∣ cur.word.toNat := Nat.dvd_trans (Nat.pow_dvd_pow 2 (by omega)) h4
  have hdv2 : 2^(bits - (cur.depth + 1)) ∣ cur.word.toNat + 2^(bits - (cur.depth + 1)) := Nat.dvd_add hdv (Nat.dvd_refl _)
  unfold pushRight pushLeft
  rw [e1]
  rw [hs] at e2 hp ⊢
  by_cases c1 : cur.m - left > 0
  · rw [if_pos c1]
    by_cases c2 : left > 0
    · refine ⟨_, _, _, rfl, if_pos c2, rfl, ⟨h1, c2, hd, hdv, ?_⟩, ?_⟩
      · refine ⟨?_, c1, hd, ?_, ?_⟩
        · dsimp only; omega
        · dsimp only; rw [e2]; exact hdv2
        · dsimp only; rw [e2]
          exact h5.mono (by omega)
      · simp only [total, List.map_cons, List.sum_cons]; omega
    · refine ⟨_, _, _, rfl, if_neg c2, rfl, ⟨?_, c1, hd, ?_, ?_⟩, ?_⟩
      · dsimp only; omega
      · dsimp only; rw [e2]; exact hdv2
      · dsimp only; rw [e2]; exact h5.mono (by omega)
      · simp only [total, List.map_cons, List.sum_cons]; omega
  · rw [if_neg c1]
    refine ⟨_, _, _, rfl, if_pos (by omega), rfl, ⟨h1, ?_, hd, hdv, h5.mono (by dsimp only; omega)⟩, ?_⟩
    · dsimp only; omega
    · simp only [total, List.map_cons, List.sum_cons]; omega

theorem descend_ok {bits : Nat} (hb : bits ≤ 64) (d : Nat → Nat) : ∀ (fuel : Nat) {lo : Nat} {cur : Node} {st : List Node} (k : Nat),
    Chain bits lo (cur :: st) → bits - cur.depth ≤ fuel →
    ∃ cur' st' k', descend bits d fuel cur st k = some (cur', st', k') ∧ cur'.depth = bits ∧ Chain bits lo (cur' :: st') ∧
      total (cur' :: st') = total (cur :: st) := by
  intro fuel
  induction fuel with
  | zero =>
    intro lo cur st k h hf
    have := h.2.2.1
    unfold descend
    rw [if_neg (by omega)]
    exact ⟨_, _, _, rfl, by omega, h, rfl⟩
  | succ fuel ih =>
    intro lo cur st k h hf
    have := h.2.2.1
    unfold descend
    by_cases hc : cur.depth < bits
    · rw [if_pos hc]
      dsimp only
      have hm : d k % (cur.m + 1) ≤ cur.m := Nat.le_of_lt_succ (Nat.mod_lt _ (by omega))
      obtain ⟨st1, top, st', e1, e2, e3, e4, e5⟩ := step_ok hb h hc _ hm
      rw [subU_eq _ _ hm, bind_pure_some, e1, bind_pure_some, e2]
      dsimp only
      obtain ⟨cur', st'', k', g1, g2, g3, g4⟩ := ih (k+1) e4 (by omega)
      exact ⟨_, _, _, g1, g2, g3, g4.trans e5⟩
    · rw [if_neg hc]
      exact ⟨_, _, _, rfl, by omega, h, rfl⟩

theorem next_ok {bits : Nat} (hb : bits ≤ 64) (d : Nat → Nat) {lo : Nat} {g : Gen} (h : Chain bits lo g.stack) (h0 : g.stack ≠ []) :
    ∃ x g', g.next bits d = some (x, g') ∧ lo ≤ x.toNat ∧ x.toNat < 2^bits ∧ Chain bits x.toNat g'.stack ∧ total g'.stack + 1 = total g.stack := by
  unfold Gen.next
  cases hs : g.stack with
  | nil => exact absurd hs h0
  | cons top st =>
    rw [hs] at h
    dsimp only
    obtain ⟨cur', st', k', e1, e2, e3, e4⟩ := descend_ok hb d bits g.drawn h (by omega)
    rw [e1, bind_pure_some]
    obtain ⟨c1, c2, c3, c4, c5⟩ := e3
    have hle := c5.le
    have h1 : 2^(bits - cur'.depth) = 1 := by rw [e2, Nat.sub_self]; rfl
    rw [h1] at hle c5
    refine ⟨cur'.word, _, rfl, c1, by omega, ?_, ?_⟩
    · dsimp only
      split
      · exact ⟨Nat.le_refl _, by dsimp only; omega, c3, by dsimp only; rw [h1]; exact Nat.one_dvd _, by dsimp only; rw [h1]; exact c5⟩
      · exact c5.mono (by omega)
    · rw [← e4]
      dsimp only
      split
      · simp only [total, List.map_cons, List.sum_cons]; omega
      · simp only [total, List.map_cons, List.sum_cons]; omega

theorem total_zero {bits lo : Nat} {st : List Node} (h : Chain bits lo st) (h0 : total st = 0) : st = [] := by
  cases st with
  | nil => rfl
  | cons n st => have := h.2.1; simp only [total, List.map_cons, List.sum_cons] at h0; omega

theorem pull_ok {bits : Nat} (hb : bits ≤ 64) (d : Nat → Nat) : ∀ (n : Nat) {lo : Nat} {g : Gen}, Chain bits lo g.stack → total g.stack = n →
    ∃ l g', g.pull bits d n = some (l, g') ∧ g'.stack = [] ∧ l.length = n ∧ l.Pairwise (· ≤ ·) ∧ ∀ x ∈ l, lo ≤ x.toNat ∧ x.toNat < 2^bits := by
  intro n
  induction n with
  | zero => intro lo g h ht; exact ⟨[], g, rfl, total_zero h ht, rfl, .nil, by simp⟩
  | succ n ih =>
    intro lo g h ht
    obtain ⟨x, g1, e1, h1, h2, h3, h4⟩ := next_ok hb d h (fun c => by rw [c] at ht; simp [total] at ht)
    obtain ⟨l, g', e2, k1, k2, k3, k4⟩ := ih h3 (by omega)
    refine ⟨x :: l, g', ?_, k1, by rw [List.length_cons, k2], ?_, ?_⟩
    · unfold Gen.pull
      rw [e1, bind_pure_some]
      dsimp only
      rw [e2]; rfl
    · rw [List.pairwise_cons]
      exact ⟨fun y hy => BitVec.le_def.2 (k4 y hy).1, k3⟩
    · intro y hy
      rcases List.mem_cons.1 hy with rfl | hy
      · exact ⟨h1, h2⟩
      · have := k4 y hy; exact ⟨by omega, this.2⟩

theorem new_chain (bits m : Nat) (hm : 0 < m) : Chain bits 0 (Gen.new m).stack ∧ total (Gen.new m).stack = m := by
  refine ⟨⟨Nat.zero_le _, hm, Nat.zero_le _, Nat.dvd_zero _, ?_⟩, by simp [total, Gen.new]⟩
  show 0 + 2^(bits - 0) ≤ 2^bits
  rw [Nat.sub_zero, Nat.zero_add]

/-! every sequence can come out -/

/-- the values `l` are spread over the intervals of the stack -/
def Fits (bits : Nat) : List Node → List Word → Prop
  | [], l => l = []
  | n :: st, l => n.m ≤ l.length ∧ (∀ x ∈ l.take n.m, n.word.toNat ≤ x.toNat ∧ x.toNat < n.word.toNat + 2^(bits - n.depth)) ∧ Fits bits st (l.drop n.m)

/-- in a sorted list the values below a bound come first -/
theorem sorted_split (l : List Word) (hs : l.Pairwise (· ≤ ·)) (b : Nat) : ∃ c, c ≤ l.length ∧ (∀ x ∈ l.take c, x.toNat < b) ∧ ∀ x ∈ l.drop c, b ≤ x.toNat := by
  induction l with
  | nil => exact ⟨0, Nat.le_refl _, by simp, by simp⟩
  | cons y l ih =>
    rw [List.pairwise_cons] at hs
    by_cases hy : y.toNat < b
    · obtain ⟨c, h1, h2, h3⟩ := ih hs.2
      refine ⟨c + 1, by simpa using h1, ?_, by simpa using h3⟩
      intro x hx
      rw [List.take_succ_cons] at hx
      rcases List.mem_cons.1 hx with rfl | hx
      · exact hy
      · exact h2 x hx
    · refine ⟨0, Nat.zero_le _, by simp, ?_⟩
      intro x hx
      rw [List.drop_zero] at hx
      rcases List.mem_cons.1 hx with rfl | hx
      · omega
      · have := BitVec.le_def.1 (hs.1 x hx); omega

theorem step_fits {bits lo : Nat} (hb : bits ≤ 64) {cur : Node} {st : List Node} (h : Chain bits lo (cur :: st)) (hd : cur.depth < bits)
    {l : List Word} (hl : l.Pairwise (· ≤ ·)) (hf : Fits bits (cur :: st) l) :
    ∃ left, left ≤ cur.m ∧ ∀ st1 top st', pushRight bits cur (cur.m - left) st = some st1 → pushLeft cur left st1 = top :: st' → Fits bits (top :: st') l := by
  obtain ⟨f1, f2, f3⟩ := hf
  obtain ⟨e1, e2⟩ := or_pow bits cur.depth cur.word hb hd h.2.2.2.1
  have hp := pow_split (e := bits - cur.depth) (by omega)
  have hs : bits - cur.depth - 1 = bits - (cur.depth + 1) := by omega
  obtain ⟨c, c1, c2, c3⟩ := sorted_split (l.take cur.m) (hl.sublist (List.take_sublist _ _)) (cur.word.toNat + 2^(bits - (cur.depth + 1)))
  rw [List.length_take] at c1
  have hc : c ≤ cur.m := by omega
  rw [List.take_take, Nat.min_eq_left hc] at c2
  have hdt : (l.take cur.m).drop c = (l.drop c).take (cur.m - c) := List.drop_take
  rw [hdt] at c3
  have f2' : ∀ x ∈ l.take c, cur.word.toNat ≤ x.toNat := fun x hx => (f2 x ((List.take_subset_take_left _ hc) hx)).1
  have f2'' : ∀ x ∈ (l.drop c).take (cur.m - c), x.toNat < cur.word.toNat + 2^(bits - cur.depth) := fun x hx => by
    rw [← hdt] at hx
    exact (f2 x (List.drop_subset _ _ hx)).2
  have f3' : Fits bits st ((l.drop c).drop (cur.m - c)) := by rw [List.drop_drop, show c + (cur.m - c) = cur.m by omega]; exact f3
  refine ⟨c, hc, fun st1 top st' g1 g2 => ?_⟩
  unfold pushRight at g1
  unfold pushLeft at g2
  rw [e1] at g1
  rw [hs] at e2 hp g1
  by_cases k1 : cur.m - c > 0
  · rw [if_pos k1] at g1
    obtain rfl := Option.some.inj g1
    have hr : Fits bits (⟨cur.word ||| 1#64 <<< (bits - (cur.depth + 1)), cur.m - c, cur.depth + 1⟩ :: st) (l.drop c) := by
      refine ⟨by rw [List.length_drop]; dsimp only; omega, fun x hx => ?_, f3'⟩
      dsimp only at hx ⊢
      have h1 := c3 x hx
      have h2 := f2'' x hx
      change _ ∧ _
      rw [show (cur.word ||| 1#64 <<< (bits - (cur.depth + 1))).toNat = _ from e2]
      omega
    by_cases k2 : c > 0
    · rw [if_pos k2] at g2
      injection g2 with g2 g3
      subst g2; subst g3
      exact ⟨by dsimp only; omega, fun x hx => ⟨f2' x hx, c2 x hx⟩, hr⟩
    · rw [if_neg k2] at g2
      injection g2 with g2 g3
      subst g2; subst g3
      rw [show c = 0 by omega, List.drop_zero] at hr
      rw [show c = 0 by omega]
      exact hr
  · rw [if_neg k1] at g1
    obtain rfl := Option.some.inj g1
    rw [if_pos (by have := h.2.1; omega)] at g2
    injection g2 with g2 g3
    subst g2; subst g3
    have : c = cur.m := by omega
    subst this
    exact ⟨f1, fun x hx => ⟨f2' x hx, c2 x hx⟩, f3⟩

/-- `d` returns the numbers `ds` from the `k`-th draw on -/
def Draws (d : Nat → Nat) (k : Nat) (ds : List Nat) : Prop := ∀ i x, ds[i]? = some x → d (k + i) = x

theorem Draws.append {d : Nat → Nat} {k : Nat} {a b : List Nat} (h : Draws d k (a ++ b)) : Draws d k a ∧ Draws d (k + a.length) b := by
  refine ⟨fun i x hx => h i x ?_, fun i x hx => ?_⟩
  · rw [List.getElem?_append_left (List.getElem?_eq_some_iff.1 hx).1]; exact hx
  · rw [Nat.add_assoc]
    refine h _ x ?_
    rw [List.getElem?_append_right (by omega), Nat.add_sub_cancel_left]; exact hx

theorem descend_fits {bits : Nat} (hb : bits ≤ 64) {l : List Word} (hl : l.Pairwise (· ≤ ·)) :
    ∀ (fuel : Nat) {lo : Nat} {cur : Node} {st : List Node}, Chain bits lo (cur :: st) → bits - cur.depth ≤ fuel → Fits bits (cur :: st) l →
    ∃ ds cur' st', (∀ d k, Draws d k ds → descend bits d fuel cur st k = some (cur', st', k + ds.length)) ∧ cur'.depth = bits ∧ Chain bits lo (cur' :: st') ∧
      Fits bits (cur' :: st') l := by
  intro fuel
  induction fuel with
  | zero =>
    intro lo cur st h hf hF
    have := h.2.2.1
    refine ⟨[], cur, st, fun d k _ => ?_, by omega, h, hF⟩
    unfold descend
    rw [if_neg (by omega)]; rfl
  | succ fuel ih =>
    intro lo cur st h hf hF
    have := h.2.2.1
    by_cases hc : cur.depth < bits
    · obtain ⟨left, hl1, hl2⟩ := step_fits hb h hc hl hF
      obtain ⟨st1, top, st', e1, e2, e3, e4, e5⟩ := step_ok hb h hc _ hl1
      obtain ⟨ds, cur', st'', g1, g2, g3, g4⟩ := ih e4 (by omega) (hl2 _ _ _ e1 e2)
      refine ⟨left :: ds, cur', st'', fun d k hd => ?_, g2, g3, g4⟩
      have hd1 : d k = left := hd 0 left rfl
      have hd2 : Draws d (k+1) ds := (Draws.append (a := [left]) hd).2
      unfold descend
      rw [if_pos hc]
      dsimp only
      rw [hd1, Nat.mod_eq_of_lt (by omega), subU_eq _ _ hl1, bind_pure_some, e1, bind_pure_some, e2]
      dsimp only
      rw [g1 d (k+1) hd2, List.length_cons, show k + 1 + ds.length = k + (ds.length + 1) by omega]
    · refine ⟨[], cur, st, fun d k _ => ?_, by omega, h, hF⟩
      unfold descend
      rw [if_neg hc]; rfl

theorem pull_fits {bits : Nat} (hb : bits ≤ 64) : ∀ (l : List Word) {lo : Nat} {st : List Node}, l.Pairwise (· ≤ ·) → Chain bits lo st → Fits bits st l →
    ∃ ds, ∀ d k, Draws d k ds → ∃ k', Gen.pull bits d l.length ⟨st, k⟩ = some (l, ⟨[], k'⟩) := by
  intro l
  induction l with
  | nil =>
    intro lo st _ h hF
    refine ⟨[], fun d k _ => ⟨k, ?_⟩⟩
    cases st with
    | nil => rfl
    | cons n st => have := hF.1; have := h.2.1; simp only [List.length_nil] at *; omega
  | cons x l ih =>
    intro lo st hs h hF
    cases st with
    | nil => cases hF
    | cons top st =>
      obtain ⟨ds, cur', st', g1, g2, g3, g4⟩ := descend_fits hb hs bits h (by omega) hF
      obtain ⟨c1, c2, c3, c4, c5⟩ := g3
      obtain ⟨f1, f2, f3⟩ := g4
      have h1 : 2^(bits - cur'.depth) = 1 := by rw [g2, Nat.sub_self]; rfl
      obtain ⟨n, hn⟩ : ∃ n, cur'.m = n + 1 := ⟨cur'.m - 1, by omega⟩
      have hx : cur'.word = x := by
        apply BitVec.eq_of_toNat_eq
        have := f2 x (by rw [hn, List.take_succ_cons]; exact List.mem_cons_self)
        omega
      have hnext : ∀ d k, Draws d k ds → Gen.next bits d ⟨top :: st, k⟩ =
          some (x, ⟨if cur'.m > 1 then ⟨cur'.word, cur'.m - 1, cur'.depth⟩ :: st' else st', k + ds.length⟩) := by
        intro d k hd
        unfold Gen.next
        dsimp only
        rw [g1 d k hd, bind_pure_some, hx]; rfl
      have hch : Chain bits cur'.word.toNat (if cur'.m > 1 then ⟨cur'.word, cur'.m - 1, cur'.depth⟩ :: st' else st') := by
        rw [h1] at c5
        split
        · exact ⟨Nat.le_refl _, by dsimp only; omega, c3, by dsimp only; rw [h1]; exact Nat.one_dvd _, by dsimp only; rw [h1]; exact c5⟩
        · exact c5.mono (by omega)
      have hfi : Fits bits (if cur'.m > 1 then ⟨cur'.word, cur'.m - 1, cur'.depth⟩ :: st' else st') l := by
        rw [hn, List.length_cons] at f1
        rw [hn, List.drop_succ_cons] at f3
        split
        · refine ⟨by dsimp only; omega, fun y hy => ?_, ?_⟩
          · dsimp only at hy ⊢
            refine f2 y ?_
            rw [hn, List.take_succ_cons]
            rw [hn, Nat.add_sub_cancel] at hy
            exact List.mem_cons_of_mem _ hy
          · dsimp only; rw [hn, Nat.add_sub_cancel]; exact f3
        · rw [show n = 0 by omega, List.drop_zero] at f3
          exact f3
      obtain ⟨ds', hds⟩ := ih (List.pairwise_cons.1 hs).2 hch hfi
      refine ⟨ds ++ ds', fun d k hd => ?_⟩
      obtain ⟨d1, d2⟩ := hd.append
      obtain ⟨k', hk⟩ := hds d _ d2
      refine ⟨k', ?_⟩
      rw [List.length_cons, Gen.pull, hnext d k d1, bind_pure_some]
      dsimp only
      rw [hk]; rfl

/-- `m` calls are `k` calls and then `m - k` calls -/
theorem pull_split (bits : Nat) (d : Nat → Nat) : ∀ (k m : Nat), k ≤ m → ∀ (g : Gen) (l : List Word) (g' : Gen), g.pull bits d m = some (l, g') →
    ∃ l1 g1, g.pull bits d k = some (l1, g1) ∧ l1 = l.take k ∧ g1.pull bits d (m - k) = some (l.drop k, g')
  | 0, m, _, g, l, g', h => ⟨[], g, rfl, rfl, h⟩
  | k + 1, m, hk, g, l, g', h => by
    obtain ⟨j, rfl⟩ : ∃ j, m = j + 1 := ⟨m - 1, by omega⟩
    unfold Gen.pull at h
    simp only [Option.bind_eq_bind, Option.bind_eq_some_iff] at h
    obtain ⟨⟨x, g1⟩, h1, ⟨l', g2⟩, h2, h3⟩ := h
    cases h3
    obtain ⟨l1, g3, p1, p2, p3⟩ := pull_split bits d k j (by omega) g1 l' _ h2
    refine ⟨x :: l1, g3, ?_, by rw [p2, List.take_succ_cons], by rw [Nat.add_sub_add_right]; exact p3⟩
    rw [Gen.pull, h1, bind_pure_some]
    dsimp only
    rw [p1]; rfl

/-- the loop that fills the builder pushes the generated values one after the other -/
theorem fill_eq (bits : Nat) (d : Nat → Nat) : ∀ (n : Nat) (b : EFBuilder) (g : Gen) (l : List Word) (g' : Gen), g.pull bits d n = some (l, g') →
    fill bits d n b g = (l.foldlM EFBuilder.pushBack b).map fun b => (b, g')
  | 0, b, g, l, g', h => by
    obtain ⟨rfl, rfl⟩ := Prod.mk.inj (Option.some.inj h)
    rfl
  | n + 1, b, g, l, g', h => by
    unfold Gen.pull at h
    simp only [Option.bind_eq_bind, Option.bind_eq_some_iff] at h
    obtain ⟨⟨x, g1⟩, h1, ⟨l', g2⟩, h2, h3⟩ := h
    obtain ⟨rfl, rfl⟩ := Prod.mk.inj (Option.some.inj h3)
    unfold fill
    rw [h1, bind_pure_some, List.foldlM_cons]
    dsimp only
    cases hp : b.pushBack x with
    | none => rfl
    | some b1 =>
      rw [bind_pure_some, bind_pure_some]
      exact fill_eq bits d n b1 g1 l' _ h2

theorem xorLoop_eq (ef : EliasFano) : ∀ (n : Nat) (e : EliasFano.SelEnum) (foo : Word) (l : List Word), EliasFano.SelEnum.run ef n e = some l →
    xorLoop ef n e foo = some (l.foldl (· ^^^ ·) foo)
  | 0, e, foo, l, h => by
    obtain rfl := Option.some.inj h
    rfl
  | n + 1, e, foo, l, h => by
    unfold EliasFano.SelEnum.run at h
    simp only [Option.bind_eq_bind, Option.bind_eq_some_iff] at h
    obtain ⟨⟨x, e1⟩, h1, l', h2, h3⟩ := h
    obtain rfl := Option.some.inj h3
    unfold xorLoop
    rw [h1, bind_pure_some, List.foldl_cons]
    exact xorLoop_eq ef n e1 _ l' h2

end Perf
end Succinct
