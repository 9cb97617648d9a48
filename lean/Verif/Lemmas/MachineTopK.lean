import Verif.Model.MachineTopK
import Verif.Lemmas.MachineCart
import Verif.Lemmas.TopK
import Verif.Props.CartesianTree

/-! `topk_vector` in 64-bit arithmetic: the heap of 64-bit elements as a heap of unbounded ones, and the simulation. -/
namespace Succinct
open Spec
open Machine (W)
open RSBitVector (bind_pure_some)

namespace Machine.TopKEnum
variable {α : Type}

/-- a queue element in memory -/
def enc (x : Succinct.QElem α) : QElem α := ⟨x.val, W x.mid, W x.a, W x.b⟩

/-- the numbers in a queue element -/
def dec (x : QElem α) : Succinct.QElem α := ⟨x.val, x.mid.toNat, x.a.toNat, x.b.toNat⟩

/-- the numbers fit into words -/
def Fit (x : Succinct.QElem α) : Prop := x.mid < 2^64 ∧ x.a < 2^64 ∧ x.b < 2^64

instance (x : Succinct.QElem α) : Decidable (Fit x) := by unfold Fit; infer_instance

theorem enc_dec (x : QElem α) : enc (dec x) = x := by
  unfold enc dec
  simp only [W_of]

theorem dec_enc {x : Succinct.QElem α} (h : Fit x) : dec (enc x) = x := by
  obtain ⟨h1, h2, h3⟩ := h
  unfold enc dec
  simp only [W_toNat _ h1, W_toNat _ h2, W_toNat _ h3]

theorem fit_dec (x : QElem α) : Fit (dec x) := ⟨x.mid.isLt, x.a.isLt, x.b.isLt⟩

theorem map_enc_dec (q : List (QElem α)) : (q.map dec).map enc = q := by
  rw [List.map_map]
  exact (List.map_congr_left (f := enc ∘ dec) (g := id) (fun x _ => enc_dec x)).trans (List.map_id q)

theorem map_dec_enc {q : List (Succinct.QElem α)} (h : ∀ x ∈ q, Fit x) : (q.map enc).map dec = q := by
  rw [List.map_map]
  exact (List.map_congr_left (f := dec ∘ enc) (g := id) (fun x hx => dec_enc (h x hx))).trans (List.map_id q)

theorem fit_map_dec (q : List (QElem α)) : ∀ x ∈ q.map dec, Fit x := by
  intro x hx
  obtain ⟨y, _, rfl⟩ := List.mem_map.1 hx
  exact fit_dec y

theorem viComp_dec (o : Ops α) (x y : QElem α) : Succinct.viComp o (dec x) (dec y) = viComp o x y := by
  unfold Succinct.viComp viComp dec
  simp only [gt_iff_lt, BitVec.lt_def]

theorem isHeap_dec (o : Ops α) (q : List (QElem α)) : IsHeap (Succinct.viComp o) (q.map dec) ↔ IsHeap (viComp o) q := by
  unfold IsHeap
  constructor
  · intro h i x y h0 hx hy
    rw [← viComp_dec]
    exact h i _ _ h0 (by rw [List.getElem?_map, hx]; rfl) (by rw [List.getElem?_map, hy]; rfl)
  · intro h i x y h0 hx hy
    rw [List.getElem?_map, Option.map_eq_some_iff] at hx hy
    obtain ⟨x, hx, rfl⟩ := hx
    obtain ⟨y, hy, rfl⟩ := hy
    rw [viComp_dec]
    exact h i x y h0 hx hy

/-- heap functions on words as heap functions on numbers -/
def lift (o : Ops α) (h : HeapOps (QElem α)) : HeapOps (Succinct.QElem α) where
  pushHeap q := if ∀ x ∈ q, Fit x then (h.pushHeap (q.map enc)).map (List.map dec) else (sortHeap (Succinct.viComp o)).pushHeap q
  popHeap q := if ∀ x ∈ q, Fit x then (h.popHeap (q.map enc)).map (List.map dec) else (sortHeap (Succinct.viComp o)).popHeap q

theorem lift_valid {o : Ops α} (ho : TotalOrder o.lt o.eq) {h : HeapOps (QElem α)} (hh : h.Valid (viComp o)) :
    (lift o h).Valid (Succinct.viComp o) where
  push := by
    intro q x hq
    by_cases hf : ∀ y ∈ q ++ [x], Fit y
    · have hfq : ∀ y ∈ q, Fit y := fun y hy => hf y (by simp [hy])
      have hfx : Fit x := hf x (by simp)
      obtain ⟨q', e, k1, k2⟩ := hh.push (q.map enc) (enc x) (by rw [← isHeap_dec, map_dec_enc hfq]; exact hq)
      refine ⟨q'.map dec, ?_, (isHeap_dec o q').2 k1, ?_⟩
      · show (if ∀ y ∈ q ++ [x], Fit y then _ else _) = _
        rw [if_pos hf, List.map_append, List.map_cons, List.map_nil, e]; rfl
      · have := k2.map dec
        rwa [List.map_append, List.map_cons, List.map_nil, map_dec_enc hfq, dec_enc hfx] at this
    · obtain ⟨q', e, k⟩ := (sortHeap_valid (viComp_strictWeak o ho)).push q x hq
      refine ⟨q', ?_, k⟩
      show (if ∀ y ∈ q ++ [x], Fit y then _ else _) = _
      rw [if_neg hf, e]
  pop := by
    intro x q hq
    by_cases hf : ∀ y ∈ x :: q, Fit y
    · have hfq : ∀ y ∈ q, Fit y := fun y hy => hf y (by simp [hy])
      have hfx : Fit x := hf x (by simp)
      obtain ⟨q', e, k1, k2⟩ := hh.pop (enc x) (q.map enc) (by
        rw [← isHeap_dec, List.map_cons, map_dec_enc hfq, dec_enc hfx]; exact hq)
      refine ⟨q'.map dec, ?_, (isHeap_dec o q').2 k1, ?_⟩
      · show (if ∀ y ∈ x :: q, Fit y then _ else _) = _
        rw [if_pos hf, List.map_cons, e]
        simp only [Option.map_some, List.map_append, List.map_cons, List.map_nil, dec_enc hfx]
      · have := k2.map dec
        rwa [map_dec_enc hfq] at this
    · obtain ⟨q', e, k⟩ := (sortHeap_valid (viComp_strictWeak o ho)).pop x q hq
      refine ⟨q', ?_, k⟩
      show (if ∀ y ∈ x :: q, Fit y then _ else _) = _
      rw [if_neg hf, e]

theorem lift_push {o : Ops α} {h : HeapOps (QElem α)} {q r : List (Succinct.QElem α)} (hf : ∀ x ∈ q, Fit x) (e : (lift o h).pushHeap q = some r) :
    h.pushHeap (q.map enc) = some (r.map enc) ∧ ∀ x ∈ r, Fit x := by
  have e' : (if ∀ x ∈ q, Fit x then (h.pushHeap (q.map enc)).map (List.map dec) else (sortHeap (Succinct.viComp o)).pushHeap q) = some r := e
  rw [if_pos hf, Option.map_eq_some_iff] at e'
  obtain ⟨r', e1, rfl⟩ := e'
  exact ⟨by rw [e1, map_enc_dec], fit_map_dec r'⟩

theorem lift_pop {o : Ops α} {h : HeapOps (QElem α)} {q r : List (Succinct.QElem α)} (hf : ∀ x ∈ q, Fit x) (e : (lift o h).popHeap q = some r) :
    h.popHeap (q.map enc) = some (r.map enc) ∧ ∀ x ∈ r, Fit x := by
  have e' : (if ∀ x ∈ q, Fit x then (h.popHeap (q.map enc)).map (List.map dec) else (sortHeap (Succinct.viComp o)).popHeap q) = some r := e
  rw [if_pos hf, Option.map_eq_some_iff] at e'
  obtain ⟨r', e1, rfl⟩ := e'
  exact ⟨by rw [e1, map_enc_dec], fit_map_dec r'⟩

variable {V : Type} {c : Container V α} {t : Succinct.TopK α} {m : TopK V}

/-- the vector in memory answers as the one with unbounded numbers -/
structure Sim (c : Container V α) (t : Succinct.TopK α) (m : TopK V) : Prop where
  rmq : ∀ a b r, a < 2^64 → b < 2^64 → t.tree.rmq a b = some r → m.tree.rmq (W a) (W b) = some (W r) ∧ r < 2^64 ∧ a ≤ b
  get : ∀ i x, i < 2^64 → t.v[i]? = some x → c.get m.v (W i) = some x

/-- the enumerators correspond -/
structure Rel (t : Succinct.TopK α) (m : TopK V) (e : Succinct.TopKEnum α) (e' : TopKEnum V α) : Prop where
  topkv : e.topkv = some t
  topkv' : e'.topkv = some m
  q : e'.q = e.q.map enc
  cur : e'.cur = e.cur.map fun p => (p.1, W p.2)
  fit : ∀ x ∈ e.q, Fit x

theorem elemFor_sim (hs : Sim c t m) {a b : Nat} {x : Succinct.QElem α} (ha : a < 2^64) (hb : b < 2^64)
    (e : Succinct.TopKEnum.elemFor t a b = some x) : elemFor c m (W a) (W b) = some (enc x) ∧ Fit x ∧ a ≤ b := by
  unfold Succinct.TopKEnum.elemFor at e
  simp only [Option.bind_eq_bind, Option.bind_eq_some_iff] at e
  obtain ⟨r, e1, y, e2, e3⟩ := e
  cases e3
  obtain ⟨k1, k2, k3⟩ := hs.rmq a b r ha hb e1
  unfold elemFor
  rw [k1, bind_pure_some, hs.get r y k2 e2]
  exact ⟨rfl, ⟨k2, ha, hb⟩, k3⟩

theorem pushLeft_sim (hs : Sim c t m) {o : Ops α} {h : HeapOps (QElem α)} {x : Succinct.QElem α} {q r : List (Succinct.QElem α)} (hx : Fit x)
    (hq : ∀ y ∈ q, Fit y) (e : Succinct.TopKEnum.pushLeft (lift o h) (some t) x q = some r) :
    pushLeft c h (some m) (enc x) (q.map enc) = some (r.map enc) ∧ ∀ y ∈ r, Fit y := by
  unfold Succinct.TopKEnum.pushLeft at e
  unfold pushLeft
  by_cases hc : x.mid = x.a
  · rw [if_neg (by simpa using hc)] at e
    cases e
    rw [if_neg (by simp only [enc, hc]; simp)]
    exact ⟨rfl, hq⟩
  · rw [if_pos hc] at e
    rw [if_pos (by
      show W x.mid ≠ W x.a
      rw [Ne, W_inj _ _ hx.1 hx.2.1]; exact hc)]
    rw [bind_pure_some] at e ⊢
    simp only [Option.bind_eq_bind, Option.bind_eq_some_iff] at e
    obtain ⟨m1, e1, y, e2, e3⟩ := e
    obtain ⟨k1, k2⟩ := subU_of e1
    obtain ⟨k3, k4, _⟩ := elemFor_sim hs hx.2.1 (by have := hx.1; omega) e2
    have : (enc x).mid - 1 = W m1 := by
      show W x.mid - W 1 = _
      rw [k2, W_sub _ _ k1]
    rw [this]
    show (elemFor c m (W x.a) (W m1) >>= _) = _ ∧ _
    rw [k3, bind_pure_some]
    have := lift_push (by
      intro z hz
      rcases List.mem_append.1 hz with hz | hz
      · exact hq z hz
      · rw [List.mem_singleton.1 hz]; exact k4) e3
    rwa [List.map_append, List.map_cons, List.map_nil] at this

theorem pushRight_sim (hs : Sim c t m) {o : Ops α} {h : HeapOps (QElem α)} {x : Succinct.QElem α} {q r : List (Succinct.QElem α)} (hx : Fit x)
    (hq : ∀ y ∈ q, Fit y) (e : Succinct.TopKEnum.pushRight (lift o h) (some t) x q = some r) :
    pushRight c h (some m) (enc x) (q.map enc) = some (r.map enc) ∧ ∀ y ∈ r, Fit y := by
  unfold Succinct.TopKEnum.pushRight at e
  unfold pushRight
  by_cases hc : x.mid = x.b
  · rw [if_neg (by simpa using hc)] at e
    cases e
    rw [if_neg (by simp only [enc, hc]; simp)]
    exact ⟨rfl, hq⟩
  · rw [if_pos hc] at e
    rw [if_pos (by
      show W x.mid ≠ W x.b
      rw [Ne, W_inj _ _ hx.1 hx.2.2]; exact hc)]
    rw [bind_pure_some] at e ⊢
    simp only [Option.bind_eq_bind, Option.bind_eq_some_iff] at e
    obtain ⟨y, e2, e3⟩ := e
    have hle : x.mid + 1 ≤ x.b := by
      unfold Succinct.TopKEnum.elemFor Succinct.CartesianTree.rmq at e2
      simp only [Option.bind_eq_bind, Option.bind_eq_some_iff] at e2
      obtain ⟨_, ⟨_, k, _⟩, _⟩ := e2
      exact assert_of k
    obtain ⟨k3, k4, _⟩ := elemFor_sim hs (by have := hx.2.2; omega) hx.2.2 e2
    have : (enc x).mid + 1 = W (x.mid + 1) := by
      show W x.mid + W 1 = _
      rw [W_add]
    rw [this]
    show (elemFor c m (W (x.mid + 1)) (W x.b) >>= _) = _ ∧ _
    rw [k3, bind_pure_some]
    have := lift_push (by
      intro z hz
      rcases List.mem_append.1 hz with hz | hz
      · exact hq z hz
      · rw [List.mem_singleton.1 hz]; exact k4) e3
    rwa [List.map_append, List.map_cons, List.map_nil] at this

theorem next_sim (hs : Sim c t m) {o : Ops α} {h : HeapOps (QElem α)} {e e2 : Succinct.TopKEnum α} {e' : TopKEnum V α} {r : Bool} (hr : Rel t m e e')
    (hn : Succinct.TopKEnum.next (lift o h) e = some (r, e2)) : ∃ e2', next c h e' = some (r, e2') ∧ Rel t m e2 e2' := by
  unfold Succinct.TopKEnum.next at hn
  unfold next
  by_cases hq : e.q = []
  · rw [if_pos hq] at hn
    cases hn
    rw [if_pos (by rw [hr.q, hq]; rfl)]
    exact ⟨e', rfl, hr⟩
  · rw [if_neg hq] at hn
    rw [if_neg (by rw [hr.q]; simpa using hq)]
    simp only [Option.bind_eq_bind, Option.bind_eq_some_iff] at hn
    obtain ⟨q1, h1, x, h2, q2, h3, q3, h4, h5⟩ := hn
    obtain ⟨k1, k2⟩ := lift_pop hr.fit h1
    have hx : Fit x := k2 x (List.mem_of_getLast? h2)
    rw [hr.topkv] at h3 h4
    obtain ⟨k3, k4⟩ := pushLeft_sim hs hx (fun y hy => k2 y (List.dropLast_subset _ hy)) h3
    obtain ⟨k5, k6⟩ := pushRight_sim hs hx k4 h4
    rw [hr.q, k1, bind_pure_some, List.getLast?_map, h2]
    show ∃ e2', ((some (enc x) : Option (QElem α)) >>= _) = _ ∧ _
    rw [bind_pure_some, hr.topkv', ← List.map_dropLast, k3, bind_pure_some, k5, bind_pure_some]
    simp only [pure, Option.some.injEq, Prod.mk.injEq] at h5
    obtain ⟨rfl, rfl⟩ := h5
    exact ⟨_, rfl, ⟨hr.topkv, rfl, rfl, rfl, k6⟩⟩

theorem nexts_sim (hs : Sim c t m) {o : Ops α} {h : HeapOps (QElem α)} : ∀ (k : Nat) {e : Succinct.TopKEnum α} {e' : TopKEnum V α}
    {r : List (Option (α × Nat))}, Rel t m e e' → Succinct.TopKEnum.nexts (lift o h) k e = some r →
    nexts c h k e' = some (r.map (Option.map fun p => (p.1, W p.2)))
  | 0, e, e', r, _, hn => by
    cases hn
    rfl
  | k + 1, e, e', r, hr, hn => by
    unfold Succinct.TopKEnum.nexts at hn
    unfold nexts
    simp only [Option.bind_eq_bind, Option.bind_eq_some_iff] at hn
    obtain ⟨⟨b, e1⟩, h1, h2⟩ := hn
    obtain ⟨e1', k1, k2⟩ := next_sim hs hr h1
    rw [k1, bind_pure_some]
    simp only [] at h2 ⊢
    cases b with
    | true =>
      simp only [if_true, Option.bind_eq_some_iff] at h2
      obtain ⟨x, h3, rest, h4, h5⟩ := h2
      simp only [if_true]
      rw [k2.cur, h3]
      show ((some (x.1, W x.2) : Option (α × Word)) >>= _) = _
      rw [bind_pure_some, nexts_sim hs k k2 h4, bind_pure_some]
      cases h5
      rfl
    | false =>
      simp only [Bool.false_eq_true, if_false, Option.bind_eq_some_iff] at h2
      obtain ⟨rest, h4, h5⟩ := h2
      simp only [Bool.false_eq_true, if_false]
      rw [nexts_sim hs k k2 h4, bind_pure_some]
      cases h5
      rfl

theorem set_sim (hs : Sim c t m) {a b : Nat} (ha : a < 2^64) (hb : b < 2^64) (e0 : Succinct.TopKEnum α) (e0' : TopKEnum V α) {e : Succinct.TopKEnum α}
    (hc : e0'.cur = e0.cur.map fun p => (p.1, W p.2)) (h : e0.set t a b = some e) : ∃ e', e0'.set c m (W a) (W b) = some e' ∧ Rel t m e e' := by
  unfold Succinct.TopKEnum.set at h
  unfold set
  simp only [Option.bind_eq_bind, Option.bind_eq_some_iff] at h
  obtain ⟨_, h1, x, h2, h3⟩ := h
  obtain ⟨k1, k2, k3⟩ := elemFor_sim hs ha hb h2
  rw [assert_yes (show W a ≤ W b by wn), bind_pure_some]
  simp only []
  rw [k1, bind_pure_some]
  cases h3
  refine ⟨_, rfl, ⟨rfl, rfl, rfl, hc, ?_⟩⟩
  intro y hy
  have : y = x := by simpa [Succinct.TopKEnum.clear] using hy
  rw [this]; exact k2

theorem loop_sim (hs : Sim c t m) {o : Ops α} {h : HeapOps (QElem α)} (N : Nat) (hN : N < 2^64) : ∀ (n : Nat) {e e2 : Succinct.TopKEnum α} {e' : TopKEnum V α}
    {acc r : List (α × Nat)}, n ≤ N → Rel t m e e' → Succinct.TopK.topkLoop (lift o h) n e acc = some (r, e2) →
    ∃ e2', TopK.topkLoop c h (W N) n (W (N - n)) e' (acc.map fun p => (p.1, W p.2)) = some (r.map fun p => (p.1, W p.2), e2') ∧ Rel t m e2 e2'
  | 0, e, e2, e', acc, r, _, hr, hn => by
    unfold Succinct.TopK.topkLoop at hn
    cases hn
    unfold TopK.topkLoop
    rw [if_neg (by rw [Nat.sub_zero, BitVec.lt_def]; omega)]
    exact ⟨e', rfl, hr⟩
  | n + 1, e, e2, e', acc, r, hle, hr, hn => by
    unfold Succinct.TopK.topkLoop at hn
    unfold TopK.topkLoop
    rw [if_pos (by wn)]
    simp only [Option.bind_eq_bind, Option.bind_eq_some_iff] at hn
    obtain ⟨⟨b, e1⟩, h1, _, h2, x, h3, h4⟩ := hn
    obtain ⟨e1', k1, k2⟩ := next_sim hs hr h1
    simp only []
    rw [k1, bind_pure_some]
    simp only [] at h2 h3 h4 ⊢
    rw [h2, bind_pure_some, k2.cur, h3]
    show ∃ e2', ((some (x.1, W x.2) : Option (α × Word)) >>= _) = _ ∧ _
    rw [bind_pure_some, show W (N - (n + 1)) + 1 = W (N - n) by
      rw [show (1 : Word) = W 1 from rfl, ← W_add]; congr 1; omega]
    have := loop_sim hs N hN n (by omega) k2 h4
    rwa [List.map_append, List.map_cons, List.map_nil] at this

theorem topk_sim (hs : Sim c t m) {o : Ops α} {h : HeapOps (QElem α)} {a b : Nat} (ha : a < 2^64) (hb : b < 2^63) (k : Word) {r : List (α × Nat)}
    (hr : t.topk (lift o h) a b k.toNat = some r) : m.topk c h (W a) (W b) k = some (r.map fun p => (p.1, W p.2)) := by
  unfold Succinct.TopK.topk Succinct.TopK.getEnumerator at hr
  unfold TopK.topk TopK.getEnumerator
  simp only [Option.bind_eq_bind, Option.bind_eq_some_iff] at hr
  obtain ⟨d, h1, e, h2, ⟨ret, e2⟩, h3, _, h4, h5⟩ := hr
  obtain ⟨hab, rfl⟩ := subU_of h1
  obtain ⟨e', k1, k2⟩ := set_sim hs ha (by omega) Succinct.TopKEnum.new TopKEnum.new rfl h2
  have hn : BpVector.minW (W b - W a + 1) k = W (min (b - a + 1) k.toNat) := by
    rw [show (1 : Word) = W 1 from rfl, ← W_sub _ _ hab, ← W_add]
    conv_lhs => rw [← W_of k]
    rw [BpVector.minW_eq _ _ (by omega) k.isLt]
  have hk := k.isLt
  have hN : min (b - a + 1) k.toNat < 2^64 := by omega
  obtain ⟨e2', k3, k4⟩ := loop_sim hs (min (b - a + 1) k.toNat) hN _ (Nat.le_refl _) k2 h3
  rw [Nat.sub_self] at k3
  simp only [hn, W_toNat _ hN]
  rw [k1, bind_pure_some]
  rw [show (TopK.topkLoop c h (W (min (b - a + 1) k.toNat)) (min (b - a + 1) k.toNat) 0 e' []) = _ from k3, bind_pure_some]
  simp only [] at h4 h5 ⊢
  have hchk : TopK.topkCheck c h (W (min (b - a + 1) k.toNat)) k e2' = some () := by
    unfold Succinct.TopK.topkCheck at h4
    unfold TopK.topkCheck
    by_cases hc : min (b - a + 1) k.toNat = k.toNat
    · rw [if_pos (by rw [hc, W_of])]
    · rw [if_neg hc] at h4
      rw [if_neg (fun g => hc (by have := congrArg BitVec.toNat g; rwa [W_toNat _ hN] at this))]
      simp only [Option.bind_eq_bind, Option.bind_eq_some_iff] at h4
      obtain ⟨⟨b', e3⟩, g1, g2⟩ := h4
      obtain ⟨e3', g3, _⟩ := next_sim hs k4 g1
      rw [g3, bind_pure_some]
      exact g2
  rw [hchk, bind_pure_some]
  cases h5
  rfl

end Machine.TopKEnum
end Succinct
