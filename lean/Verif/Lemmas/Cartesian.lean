import Verif.Model.CartesianTree
import Verif.Spec.Order
import Verif.Lemmas.BpRmqTree
import Verif.Lemmas.Parens

/-! The bits produced by the cartesian tree builder, and `rmq`. -/
namespace Succinct
open Spec
open BpVector (exc Good)
open RSBitVector (bind_pure_some)

namespace Cart
variable {α : Type} (comp : α → α → Bool)

/-- the stack (top first) and the bits written so far, last one first -/
def step (s : List α × List Bool) (x : α) : List α × List Bool :=
  (x :: s.1.dropWhile (comp x), List.replicate (s.1.takeWhile (comp x)).length true ++ false :: s.2)

def run (v : List α) : List α × List Bool := v.foldl (step comp) ([], [])

/-- stack after the first `i` values -/
def stk (v : List α) (i : Nat) : List α := (run comp (v.take i)).1
/-- bits after the first `i` values -/
def rb (v : List α) (i : Nat) : List Bool := (run comp (v.take i)).2
/-- the whole sequence -/
def fin (v : List α) : List Bool := true :: (List.replicate (stk comp v v.length).length true ++ false :: rb comp v v.length)

theorem run_succ (v : List α) (i : Nat) (h : i < v.length) : run comp (v.take (i+1)) = step comp (run comp (v.take i)) v[i] := by
  unfold run; rw [List.take_succ_eq_append_getElem h, List.foldl_append]; rfl

theorem stk_succ (v : List α) (i : Nat) (h : i < v.length) : stk comp v (i+1) = v[i] :: (stk comp v i).dropWhile (comp v[i]) := by
  unfold stk; rw [run_succ comp v i h]; rfl

theorem rb_succ (v : List α) (i : Nat) (h : i < v.length) :
    rb comp v (i+1) = List.replicate ((stk comp v i).takeWhile (comp v[i])).length true ++ false :: rb comp v i := by
  unfold rb stk; rw [run_succ comp v i h]; rfl

theorem tw_dw (p : α → Bool) (l : List α) : (l.takeWhile p).length + (l.dropWhile p).length = l.length := by
  rw [← List.length_append, List.takeWhile_append_dropWhile]

theorem counts (v : List α) (i : Nat) (h : i ≤ v.length) :
    (rb comp v i).count false = i ∧ (rb comp v i).count true + (stk comp v i).length = i := by
  induction i with
  | zero => simp [rb, stk, run]
  | succ i ih =>
    obtain ⟨h1, h2⟩ := ih (by omega)
    rw [rb_succ comp v i h, stk_succ comp v i h]
    have := tw_dw (comp v[i]) (stk comp v i)
    constructor
    · simp [List.count_replicate, h1]
    · simp [List.count_replicate]; omega

/-- no suffix holds more ones than zeros -/
def Suf (l : List Bool) : Prop := ∀ q, (l.drop q).count true ≤ (l.drop q).count false

theorem Suf.ones {l : List Bool} (h : Suf l) (c : Nat) (hc : l.count true + c ≤ l.count false) : Suf (List.replicate c true ++ l) := by
  intro q
  rw [List.drop_append, List.drop_replicate, List.length_replicate]
  rcases Nat.lt_or_ge q c with g | g
  · rw [show q - c = 0 by omega, List.drop_zero]; simp [List.count_replicate]; omega
  · rw [show c - q = 0 by omega]; simpa using h (q-c)

theorem Suf.zero {l : List Bool} (h : Suf l) : Suf (false :: l) := by
  intro q
  cases q with
  | zero => have := h 0; simp at this ⊢; omega
  | succ q => simpa using h q

theorem rb_suf (v : List α) (i : Nat) (h : i ≤ v.length) : Suf (rb comp v i) := by
  induction i with
  | zero => intro q; simp [rb, run]
  | succ i ih =>
    rw [rb_succ comp v i h]
    apply Suf.ones (Suf.zero (ih (by omega)))
    obtain ⟨h1, h2⟩ := counts comp v i (by omega)
    have := tw_dw (comp v[i]) (stk comp v i)
    simp; omega

theorem fin_counts (v : List α) : (fin comp v).count false = v.length + 1 ∧ (fin comp v).count true = v.length + 1 := by
  obtain ⟨h1, h2⟩ := counts comp v v.length (Nat.le_refl _)
  unfold fin
  constructor
  · simp [List.count_replicate]; omega
  · simp [List.count_replicate]; omega

theorem fin_length (v : List α) : (fin comp v).length = 2 * v.length + 2 := by
  obtain ⟨h1, h2⟩ := fin_counts comp v
  have := count_add_count (fin comp v); omega

theorem fin_suf (v : List α) : Suf (fin comp v) := by
  obtain ⟨h1, h2⟩ := counts comp v v.length (Nat.le_refl _)
  have : fin comp v = List.replicate ((stk comp v v.length).length + 1) true ++ false :: rb comp v v.length := by
    unfold fin; rw [List.replicate_succ]; rfl
  rw [this]
  exact Suf.ones (Suf.zero (rb_suf comp v _ (Nat.le_refl _))) _ (by simp; omega)

/-- excess before a suffix of a list with as many ones as zeros -/
theorem exc_suffix {l p q : List Bool} (hl : l = p ++ q) (h0 : l.count true = l.count false) :
    exc l p.length = (q.count false : Int) - q.count true := by
  have h : exc l p.length = exc p p.length := by rw [hl]; exact exc_append_left p q _ (Nat.le_refl _)
  rw [h]
  unfold exc excF
  rw [← count_eq_cnt]
  have h1 := count_add_count p
  rw [hl, List.count_append, List.count_append] at h0
  omega

theorem fin_dyck (v : List α) : Dyck (fin comp v) := by
  obtain ⟨h1, h2⟩ := fin_counts comp v
  have key : ∀ p, p ≤ (fin comp v).length → exc (fin comp v) p = (((fin comp v).drop p).count false : Int) - ((fin comp v).drop p).count true := by
    intro p hp
    have := exc_suffix (l := fin comp v) (p := (fin comp v).take p) (q := (fin comp v).drop p) (List.take_append_drop _ _).symm (by omega)
    rwa [List.length_take, Nat.min_eq_left hp] at this
  constructor
  · intro p hp
    have := fin_suf comp v p
    rw [key p hp]; omega
  · rw [key _ (Nat.le_refl _)]; simp

/-! positions of the zeros -/

/-- the zero written by `push_back` of the `i`-th value (for `i = n`: the one of the super-root) -/
def z (v : List α) (i : Nat) : Nat := 2 * v.length + 1 - (rb comp v i).length

theorem rb_suffix (v : List α) (i j : Nat) (hij : i < j) (hj : j ≤ v.length) : (false :: rb comp v i) <:+ rb comp v j := by
  induction j with
  | zero => omega
  | succ j ih =>
    rw [rb_succ comp v j hj]
    rcases Nat.lt_or_ge i j with g | g
    · exact ((ih g (by omega)).trans (List.suffix_cons _ _)).trans (List.suffix_append _ _)
    · rw [show i = j by omega]; exact List.suffix_append _ _

theorem fin_split (v : List α) (i : Nat) (h : i ≤ v.length) : ∃ P, fin comp v = P ++ false :: rb comp v i ∧ P.length = z comp v i := by
  have hs : (false :: rb comp v i) <:+ fin comp v := by
    have hn : (false :: rb comp v v.length) <:+ fin comp v := by
      unfold fin
      exact (List.suffix_append _ _).trans (List.suffix_cons _ _)
    rcases Nat.lt_or_ge i v.length with g | g
    · exact ((rb_suffix comp v i _ g (Nat.le_refl _)).trans (List.suffix_cons _ _)).trans hn
    · rw [show i = v.length by omega]; exact hn
  obtain ⟨P, hP⟩ := hs
  refine ⟨P, hP.symm, ?_⟩
  have h1 := fin_length comp v
  rw [← hP] at h1
  simp only [List.length_append, List.length_cons] at h1
  unfold z; omega

theorem z_lt (v : List α) (i : Nat) (h : i ≤ v.length) : z comp v i < 2 * v.length + 2 := by unfold z; omega

theorem z_bit (v : List α) (i : Nat) (h : i ≤ v.length) : bitFn (fin comp v) (z comp v i) = false := by
  obtain ⟨P, e, l⟩ := fin_split comp v i h
  rw [e, bitFn_append, if_neg (by omega), l, Nat.sub_self]; rfl

theorem z_cnt (v : List α) (i : Nat) (h : i ≤ v.length) : cnt (fun p => !bitFn (fin comp v) p) (z comp v i) = v.length - i := by
  obtain ⟨P, e, l⟩ := fin_split comp v i h
  have hz := z_lt comp v i h
  rw [← rank0_eq_cnt _ _ (by rw [fin_length]; omega)]
  unfold rank0
  have h1 := (fin_counts comp v).1
  rw [e] at h1 ⊢
  rw [← l, List.take_left]
  have h2 := (counts comp v i h).1
  simp at h1; omega

theorem z_exc (v : List α) (i : Nat) (h : i ≤ v.length) :
    exc (fin comp v) (z comp v i) = (stk comp v i).length + 1 ∧ exc (fin comp v) (z comp v i + 1) = (stk comp v i).length := by
  obtain ⟨P, e, l⟩ := fin_split comp v i h
  obtain ⟨h1, h2⟩ := fin_counts comp v
  have h3 := exc_suffix e (by omega)
  obtain ⟨h4, h5⟩ := counts comp v i h
  rw [l] at h3
  have h6 : exc (fin comp v) (z comp v i + 1) = exc (fin comp v) (z comp v i) - 1 := by
    have := excF_succ (bitFn (fin comp v)) (z comp v i); rw [z_bit comp v i h] at this; simp at this; simp only [exc]; omega
  simp at h3
  omega

theorem z_succ (v : List α) (i : Nat) (h : i < v.length) :
    z comp v (i+1) < z comp v i ∧ ∀ p, z comp v (i+1) < p → p < z comp v i → bitFn (fin comp v) p = true := by
  obtain ⟨P, e, l⟩ := fin_split comp v (i+1) h
  have hz1 := z_lt comp v i (by omega)
  obtain ⟨Q, e2, l2⟩ := fin_split comp v i (by omega)
  have hrb := rb_succ comp v i h
  have hlen := congrArg List.length hrb
  have f1 := congrArg List.length e
  have f2 := congrArg List.length e2
  simp only [List.length_append, List.length_cons, List.length_replicate] at hlen f1 f2
  refine ⟨by omega, fun p p1 p2 => ?_⟩
  rw [e, bitFn_append, if_neg (by omega), hrb]
  rw [show false :: (List.replicate ((stk comp v i).takeWhile (comp v[i])).length true ++ false :: rb comp v i) =
    [false] ++ (List.replicate ((stk comp v i).takeWhile (comp v[i])).length true ++ false :: rb comp v i) from rfl]
  rw [bitFn_append, if_neg (by simp; omega), bitFn_append, if_pos (by simp; omega), bitFn_replicate]
  simp; omega

theorem z_mono (v : List α) (i j : Nat) (hij : i < j) (hj : j ≤ v.length) : z comp v j < z comp v i := by
  induction j with
  | zero => omega
  | succ j ih =>
    have := (z_succ comp v j hj).1
    rcases Nat.lt_or_ge i j with g | g
    · have := ih g (by omega); omega
    · rw [show i = j by omega]; omega

/-- every position in `(z b, z a]` lies in some `(z (k+1), z k]` -/
theorem z_between (v : List α) (a b : Nat) (hab : a ≤ b) (hb : b ≤ v.length) (p : Nat) (h1 : z comp v b < p) (h2 : p ≤ z comp v a) :
    ∃ k, a ≤ k ∧ k < b ∧ z comp v (k+1) < p ∧ p ≤ z comp v k := by
  induction b with
  | zero => have : a = 0 := by omega
            subst this; omega
  | succ b ih =>
    rcases Nat.lt_or_ge (z comp v b) p with g | g
    · rcases Nat.lt_or_ge b a with q | q
      · have : a = b+1 := by omega
        subst this; omega
      · obtain ⟨k, k1, k2, k3, k4⟩ := ih q (by omega) g
        exact ⟨k, k1, by omega, k3, k4⟩
    · rcases Nat.lt_or_ge b a with q | q
      · have : a = b+1 := by omega
        subst this; omega
      · exact ⟨b, q, by omega, h1, g⟩

/-! the stack -/

theorem dropWhile_stop (p : α → Bool) (pre : List α) (m : α) (base : List α) (h : p m = false) :
    (m :: base) <:+ (pre ++ m :: base).dropWhile p := by
  induction pre with
  | nil => simp [List.dropWhile, h]
  | cons a pre ih =>
    simp only [List.cons_append, List.dropWhile_cons]
    split
    · exact ih
    · exact (List.suffix_append (a :: pre) _)

/-- after the minimum is pushed it stays on the stack -/
theorem stk_after (v : List α) (m b : Nat) (hb : b < v.length) (hmb : m ≤ b)
    (h : ∀ k (hk : k < v.length), m < k → k ≤ b → comp v[k] (v[m]'(by omega)) = false) :
    ∀ j, m < j → j ≤ b → (stk comp v (m+1)).length < (stk comp v (j+1)).length := by
  have key : ∀ j, m < j → j ≤ b + 1 → stk comp v (m+1) <:+ stk comp v j := by
    intro j
    induction j with
    | zero => omega
    | succ j ih =>
      intro h1 h2
      rcases Nat.lt_or_ge m j with g | g
      · have hs := ih g (by omega)
        rw [stk_succ comp v j (by omega)]
        rw [stk_succ comp v m (by omega)] at hs ⊢
        obtain ⟨pre, hpre⟩ := hs
        rw [← hpre]
        exact (dropWhile_stop _ pre _ _ (h j (by omega) g (by omega))).trans (List.suffix_cons _ _)
      · rw [show j = m by omega]; exact List.suffix_refl _
  intro j h1 h2
  have hs := key j h1 (by omega)
  rw [stk_succ comp v j (by omega)]
  rw [stk_succ comp v m (by omega)] at hs ⊢
  obtain ⟨pre, hpre⟩ := hs
  rw [← hpre]
  have := (dropWhile_stop (comp (v[j]'(by omega))) pre _ ((stk comp v m).dropWhile (comp (v[m]'(by omega)))) (h j (by omega) h1 h2)).length_le
  simp only [List.length_cons] at this ⊢
  omega

theorem dropWhile_split (p : α → Bool) (t bs : List α) :
    ∃ t' bs', (t ++ bs).dropWhile p = t' ++ bs' ∧ t' <:+ t ∧ bs' <:+ bs := by
  induction t with
  | nil => exact ⟨[], bs.dropWhile p, rfl, List.suffix_refl _, List.dropWhile_suffix p⟩
  | cons a t ih =>
    simp only [List.cons_append, List.dropWhile_cons]
    split
    · obtain ⟨t', bs', e, h1, h2⟩ := ih
      exact ⟨t', bs', e, h1.trans (List.suffix_cons _ _), h2⟩
    · exact ⟨a :: t, bs, rfl, List.suffix_refl _, List.suffix_refl _⟩

theorem dropWhile_all (p : α → Bool) (t bs : List α) (h : ∀ x ∈ t, p x = true) :
    (t ++ bs).dropWhile p = bs.dropWhile p := by
  induction t with
  | nil => rfl
  | cons a t ih =>
    simp only [List.cons_append, List.dropWhile_cons, h a (by simp), if_true]
    exact ih (fun x hx => h x (by simp [hx]))

/-- before the minimum is pushed the stack is at least as high -/
theorem stk_before (v : List α) (a m : Nat) (hm : m < v.length) (ham : a ≤ m)
    (h : ∀ k (hk : k < v.length), a ≤ k → k < m → comp v[m] v[k] = true) :
    ∀ j, a ≤ j → j < m → (stk comp v (m+1)).length ≤ (stk comp v (j+1)).length := by
  intro j h1 h2
  -- relative to the moment after `j`: entries pushed from `a` on, over a rest that only shrinks
  have key : ∀ i, a ≤ i → i ≤ m → ∃ t bs, stk comp v i = t ++ bs ∧ (∀ x ∈ t, ∃ k, a ≤ k ∧ k < i ∧ v[k]? = some x) ∧
      (j < i → bs.length + 1 ≤ (stk comp v (j+1)).length) := by
    intro i
    induction i with
    | zero => intro g1 g2; exact ⟨[], stk comp v 0, rfl, by simp, by omega⟩
    | succ i ih =>
      intro g1 g2
      rcases Nat.lt_or_ge i a with g | g
      · exact ⟨[], stk comp v (i+1), rfl, by simp, by omega⟩
      · obtain ⟨t, bs, e, q1, q3⟩ := ih g (by omega)
        obtain ⟨t', bs', e', s1, s2⟩ := dropWhile_split (comp (v[i]'(by omega))) t bs
        have hst := stk_succ comp v i (by omega)
        rw [e, e'] at hst
        refine ⟨v[i]'(by omega) :: t', bs', by rw [hst]; rfl, ?_, ?_⟩
        · intro x hx
          rcases List.mem_cons.1 hx with rfl | hx
          · exact ⟨i, g, by omega, List.getElem?_eq_getElem _⟩
          · obtain ⟨k, k1, k2, k3⟩ := q1 x (s1.subset hx)
            exact ⟨k, k1, by omega, k3⟩
        · intro hj
          have := s2.length_le
          rcases Nat.lt_or_ge j i with g3 | g3
          · have := q3 g3; omega
          · have hji : j = i := by omega
            subst hji
            rw [hst]; simp only [List.length_cons, List.length_append]; omega
  obtain ⟨t, bs, e, q1, q3⟩ := key m ham (Nat.le_refl _)
  have := q3 h2
  rw [stk_succ comp v m hm, e, dropWhile_all _ t bs]
  · have := (List.dropWhile_suffix (comp v[m]) (l := bs)).length_le
    simp only [List.length_cons]; omega
  · intro x hx
    obtain ⟨k, k1, k2, k3⟩ := q1 x hx
    rw [List.getElem?_eq_getElem (by omega)] at k3
    rw [← Option.some.inj k3]
    exact h k _ k1 k2

end Cart

/-! the builder -/
namespace CartesianBuilder
variable {α : Type} (comp : α → α → Bool)

theorem popLoop_spec (x : α) (st : List α) (b : Builder) (l : List Bool) (h : Succinct.Inv b l) :
    ∃ b', popLoop comp x st b = some (st.dropWhile (comp x), b') ∧
      Succinct.Inv b' (l ++ List.replicate (st.takeWhile (comp x)).length true) := by
  induction st generalizing b l with
  | nil => exact ⟨b, rfl, by simpa using h⟩
  | cons a st ih =>
    unfold popLoop
    rw [List.dropWhile_cons, List.takeWhile_cons]
    by_cases hc : comp x a = true
    · obtain ⟨b1, e1, i1⟩ := Builder.pushBack_inv b l h true
      obtain ⟨b2, e2, i2⟩ := ih b1 _ i1
      simp only [hc, if_true]
      refine ⟨b2, by rw [e1, bind_pure_some, e2], ?_⟩
      rw [List.length_cons, List.replicate_succ]
      simpa using i2
    · simp only [hc, if_false, Bool.false_eq_true]
      exact ⟨b, rfl, by simpa using h⟩

/-- the state of the builder agrees with an abstract state -/
structure OK (s : CartesianBuilder α) (a : List α × List Bool) : Prop where
  stack : s.stack = a.1
  bp : Succinct.Inv s.bp a.2.reverse

theorem pushBack_ok (s : CartesianBuilder α) (a : List α × List Bool) (h : OK s a) (x : α) :
    ∃ s', pushBack comp s x = some s' ∧ OK s' (Cart.step comp a x) := by
  unfold pushBack
  obtain ⟨b1, e1, i1⟩ := Builder.pushBack_inv s.bp _ h.bp false
  obtain ⟨b2, e2, i2⟩ := popLoop_spec comp x s.stack b1 _ i1
  rw [e1, bind_pure_some, e2, bind_pure_some]
  refine ⟨_, rfl, ⟨by simp [Cart.step, h.stack], ?_⟩⟩
  rw [h.stack] at i2
  simpa [Cart.step] using i2

theorem pushAll_ok (v : List α) (s : CartesianBuilder α) (a : List α × List Bool) (h : OK s a) :
    ∃ s', pushAll comp v s = some s' ∧ OK s' (v.foldl (Cart.step comp) a) := by
  induction v generalizing s a with
  | nil => exact ⟨s, rfl, h⟩
  | cons x v ih =>
    obtain ⟨s1, e1, h1⟩ := pushBack_ok comp s a h x
    obtain ⟨s2, e2, h2⟩ := ih s1 _ h1
    exact ⟨s2, by unfold pushAll; rw [e1, bind_pure_some, e2], h2⟩

theorem drainLoop_spec (st : List α) (b : Builder) (l : List Bool) (h : Succinct.Inv b l) :
    ∃ b', drainLoop st b = some b' ∧ Succinct.Inv b' (l ++ List.replicate st.length true) := by
  induction st generalizing b l with
  | nil => exact ⟨b, rfl, by simpa using h⟩
  | cons a st ih =>
    obtain ⟨b1, e1, i1⟩ := Builder.pushBack_inv b l h true
    obtain ⟨b2, e2, i2⟩ := ih b1 _ i1
    refine ⟨b2, by unfold drainLoop; rw [e1, bind_pure_some, e2], ?_⟩
    rw [List.length_cons, List.replicate_succ]
    simpa using i2

theorem finalize_spec (v : List α) (s : CartesianBuilder α) (h : OK s (Cart.run comp v)) :
    ∃ b, finalize s = some b ∧ Succinct.Inv b (Cart.fin comp v) := by
  unfold finalize
  obtain ⟨b1, e1, i1⟩ := Builder.pushBack_inv s.bp _ h.bp false
  obtain ⟨b2, e2, i2⟩ := drainLoop_spec s.stack b1 _ i1
  obtain ⟨b3, e3, i3⟩ := Builder.pushBack_inv b2 _ i2 true
  obtain ⟨b4, e4, i4⟩ := Builder.reverse_inv b3 _ i3
  rw [e1, bind_pure_some, e2, bind_pure_some, e3, bind_pure_some, e4]
  refine ⟨b4, rfl, ?_⟩
  rw [h.stack] at i4
  simpa [Cart.fin, Cart.rb, Cart.stk] using i4

theorem new_ok (e : Nat) (r : Bool) : ∃ s : CartesianBuilder α, new e r = some s ∧ OK s ([], []) := by
  unfold new
  obtain ⟨b, eb, ib⟩ := Builder.new_inv 0 false
  rw [eb, bind_pure_some]
  by_cases h : e = 0
  · rw [if_neg (by simp [h])]
    exact ⟨_, rfl, ⟨rfl, by simpa using ib⟩⟩
  · rw [if_pos h]
    unfold Builder.reserve
    cases r
    · exact ⟨_, rfl, ⟨rfl, by simpa using ib⟩⟩
    · refine ⟨_, rfl, ⟨rfl, ?_⟩⟩
      exact ⟨by simpa using ib.size, by simpa using ib.repr, by simp⟩

end CartesianBuilder
end Succinct
