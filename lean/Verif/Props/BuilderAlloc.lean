import Verif.Model.BuilderAlloc
import Verif.Lemmas.Alloc
import Verif.Lemmas.Darray64
import Verif.Props.EliasFano
import Verif.Props.CartesianTree
import Verif.Props.BpReject

/-! # C98: exceptions out of the other builders -/
namespace Succinct
open Spec
open RSBitVector (bind_pure_some)

theorem Builder.pushBackA_cases (s : Builder) (l : List Bool) (h : Succinct.Inv s l) (x : Bool) (k : Nat) :
    (l.length % 64 = 0 ∧ k = 0 ∧ s.pushBackA k x = some ⟨s, true, 0⟩) ∨
      (¬ (l.length % 64 = 0 ∧ k = 0) ∧ ∃ s' k', s.pushBackA k x = some ⟨s', false, k'⟩ ∧ s.pushBack x = some s' ∧ Succinct.Inv s' (l ++ [x])) := by
  obtain ⟨s', e, hi⟩ := pushBack_inv s l h x
  rw [e]
  unfold pushBack at e
  unfold pushBackA
  simp only [Option.bind_eq_bind, Option.bind_eq_some_iff] at e
  obtain ⟨v, ev, e⟩ := e
  simp only []
  rw [h.size] at *
  by_cases h0 : l.length % 64 = 0
  · rw [if_pos h0] at *
    by_cases hk : k = 0
    · rw [if_pos hk]
      exact .inl ⟨h0, hk, rfl⟩
    · rw [if_neg hk]
      obtain ⟨c, ec, ws, ew, e⟩ := by simpa only [Option.bind_eq_bind, Option.bind_eq_some_iff] using e
      simp only [Option.bind_eq_bind, ec, Option.bind_some, ev, ew]
      cases e
      exact .inr ⟨fun hh => hk hh.2, _, _, rfl, rfl, hi⟩
  · rw [if_neg h0] at *
    obtain ⟨ws, ew, e⟩ := by simpa only [Option.bind_eq_bind, Option.bind_eq_some_iff] using e
    simp only [Option.bind_eq_bind, ev, Option.bind_some, ew]
    cases e
    exact .inr ⟨fun hh => h0 hh.1, _, _, rfl, rfl, hi⟩

namespace EFBuilder

theorem lowLen_mul (n : Word) (m l : Nat) (h : lowLen n m = some l) : m * l < 2^64 := by
  unfold lowLen at h
  split at h
  · rename_i hc
    have hq : n.toNat / m < 2^64 := Nat.lt_of_le_of_lt (Nat.div_le_self _ _) n.isLt
    obtain ⟨_, i2, _⟩ := (Broadword.msb_some _ _).1 h
    rw [BitVec.getLsbD_ofNat] at i2
    simp only [Bool.and_eq_true] at i2
    have hle : 2^l ≤ n.toNat / m := Nat.ge_two_pow_of_testBit i2.2
    have h1 : m * 2^l ≤ n.toNat := Nat.le_trans (Nat.mul_le_mul_left _ hle) (Nat.mul_div_le _ _)
    have h2 : l < 2^l := Nat.lt_two_pow_self
    have h3 : m * l ≤ m * 2^l := Nat.mul_le_mul_left _ (Nat.le_of_lt h2)
    have := n.isLt
    omega
  · cases h; simp

theorem flatMap_len (xs : List Word) (l : Nat) : (xs.flatMap (lowBits · l)).length = xs.length * l := by
  induction xs with
  | nil => simp
  | cons x xs ih => rw [List.flatMap_cons, List.length_append, ih, List.length_cons, Nat.succ_mul]; simp; omega

theorem pushBackA_same {b b' : EFBuilder} {n : Word} {m l : Nat} {hl : List Bool} {xs : List Word} (h : Good b n m l hl xs) (x : Word)
    (hc : xs.length < m) (e : pushBack b x = some b') (cap : Nat) (hcap : wordsFor (m * l) ≤ cap) : pushBackA cap b x = some (b', false) := by
  unfold pushBack at e
  simp only [Option.bind_eq_bind, Option.bind_eq_some_iff] at e
  obtain ⟨_, e1, mask, e2, low, e3, hh, e4, high, e5, _, e6, e⟩ := e
  have key : appendLowA cap b x mask = some (low, false) := by
    unfold appendLow at e3
    unfold appendLowA
    by_cases h0 : b.l ≠ 0
    · rw [if_pos h0] at e3 ⊢
      have hm : mask = maskW l := by
        rw [h.hl, lowMask_eq _ h.lb] at e2; exact (Option.some.inj e2).symm
      obtain ⟨s', a1, a2⟩ := Builder.appendBitsA_eq b.low _ h.low (x &&& mask) b.l
        ⟨by rw [h.hl]; have := h.lb; omega, by rw [hm, h.hl, and_maskW_toNat _ _ h.lb]; exact Nat.mod_lt _ (Nat.two_pow_pos l)⟩ (cap - b.low.bits.length)
      rw [e3] at a1
      cases a1
      rw [a2, bind_pure_some]
      have hw := h.low.len
      rw [flatMap_len] at *
      have hmul : xs.length * l + l ≤ m * l := by rw [← Nat.succ_mul]; exact Nat.mul_le_mul_right _ hc
      unfold wordCount wordsFor at *
      rw [h.hl]
      split
      · rename_i hg
        rw [if_neg (by omega)]; rfl
      · rfl
    · rw [if_neg h0] at e3 ⊢
      cases e3; rfl
  unfold pushBackA
  rw [e1, bind_pure_some, e2, bind_pure_some, key, bind_pure_some]
  simp only [Bool.false_eq_true, if_false]
  rw [e4, bind_pure_some, e5, bind_pure_some, e6, bind_pure_some]
  cases e; rfl

theorem pushAllA_same {b : EFBuilder} {n : Word} {m l : Nat} {hl : List Bool} {xs : List Word} (h : Good b n m l hl xs)
    (ys : List Word) (hs : (xs ++ ys).Pairwise (· ≤ ·)) (hle : ∀ y ∈ ys, y ≤ n) (hc : xs.length + ys.length ≤ m) (cap : Nat) (hcap : wordsFor (m * l) ≤ cap) :
    ∃ b', ys.foldlM pushBack b = some b' ∧ pushAllA cap ys b = some (b', false) := by
  induction ys generalizing b hl xs with
  | nil => exact ⟨b, rfl, rfl⟩
  | cons y ys ih =>
    rw [List.length_cons] at hc
    obtain ⟨b', hl', e, g⟩ := pushBack_good h y (hle y (by simp))
      (fun z hz => (List.pairwise_append.1 hs).2.2 z hz y (by simp)) (by omega)
    obtain ⟨b2, e2, g2⟩ := ih g (by simpa using hs) (fun z hz => hle z (by simp [hz])) (by simp; omega)
    refine ⟨b2, by rw [List.foldlM_cons, e, bind_pure_some, e2], ?_⟩
    unfold pushAllA
    rw [pushBackA_same h y (by omega) e cap hcap, bind_pure_some]
    simpa using g2

end EFBuilder

/-- **C98**, `elias_fano_builder`: `reserve` in the constructor (line 24) asks for room enough, and the product it passes does not wrap around.  With a vector of
that capacity and no memory beyond it, storing anything that may be stored throws nothing and gives what it gives otherwise. -/
theorem C98_elias_fano (n : Word) (m : Nat) (xs : List Word) (h : Storable n m xs) :
    ∃ b b', EFBuilder.new n m = some b ∧ b.m * b.l < 2^64 ∧ xs.foldlM EFBuilder.pushBack b = some b' ∧ EFBuilder.pushAllA b.reserved xs b = some (b', false) := by
  obtain ⟨b0, l, hb0, e0, g0⟩ := EFBuilder.new_good n m ⟨h.cap, h.zero⟩
  have hml : m * l < 2^64 := by
    have e := e0
    unfold EFBuilder.new at e
    simp only [Option.bind_eq_bind, Option.bind_eq_some_iff] at e
    obtain ⟨l', e1, _, _, _, _, _, _, e⟩ := e
    have := g0.hl
    cases e
    dsimp only at this
    subst this
    exact EFBuilder.lowLen_mul n m _ e1
  obtain ⟨b1, e1, e2⟩ := EFBuilder.pushAllA_same g0 xs (by simpa using h.sorted) h.le (by simpa using h.count) b0.reserved
    (by unfold EFBuilder.reserved; rw [g0.hm, g0.hl, Nat.mod_eq_of_lt hml])
  exact ⟨b0, b1, e0, by rw [g0.hm, g0.hl]; exact hml, e1, e2⟩

/-- 24 values below `2^16` take nine low bits each, four words; with room for only three the last one fails -/
example : (EFBuilder.new 20000 24).map (fun b => (b.l, b.reserved)) = some (9, 4) ∧
    (EFBuilder.new 20000 24 >>= EFBuilder.pushAllA 4 ((List.range 24).map fun i => BitVec.ofNat 64 (700 * i))).map (fun r => (r.1.pos, r.2)) = some (24, false) ∧
    (EFBuilder.new 20000 24 >>= EFBuilder.pushAllA 3 ((List.range 24).map fun i => BitVec.ofNat 64 (700 * i))).map (fun r => (r.1.pos, r.2)) = some (21, true) := by
  decide +kernel

namespace CartesianBuilder
variable {α : Type} (comp : α → α → Bool)

theorem popLoopA_spec (x : α) (st : List α) : ∀ (k c : Nat) (b : Builder) (l : List Bool), Succinct.Inv b l →
    ∃ st' b' t l', popLoopA comp x k c st b = some (st', b', t) ∧ Succinct.Inv b' l' ∧ l.length ≤ l'.length ∧ l'.count false = l.count false ∧
      l'.count true + st'.length ≤ l.count true + st.length ∧
      (t = false → popLoop comp x st b = some (st', b') ∧ l'.count true + st'.length = l.count true + st.length) := by
  induction st with
  | nil =>
    intro k c b l h
    exact ⟨[], b, false, l, by unfold popLoopA; rfl, h, Nat.le_refl _, rfl, Nat.le_refl _, fun _ => ⟨by unfold popLoop; rfl, rfl⟩⟩
  | cons a st ih =>
    intro k c b l h
    cases c with
    | zero => exact ⟨a :: st, b, true, l, by unfold popLoopA; rfl, h, Nat.le_refl _, rfl, Nat.le_refl _, (nomatch ·)⟩
    | succ c =>
      unfold popLoopA popLoop
      by_cases hc : comp x a = true
      · rw [if_pos hc, if_pos hc]
        rcases Builder.pushBackA_cases b l h true k with ⟨_, _, e⟩ | ⟨_, b1, k1, e, e', i1⟩
        · rw [e, bind_pure_some]
          exact ⟨st, b, true, l, rfl, h, Nat.le_refl _, rfl, by simp, (nomatch ·)⟩
        · rw [e, bind_pure_some, e', bind_pure_some]
          obtain ⟨st', b', t, l', p1, p2, p3, p4, p5, p6⟩ := ih k1 c b1 _ i1
          simp only [List.length_append, List.length_singleton, List.count_append] at p3 p4 p5 p6
          refine ⟨st', b', t, l', by simpa using p1, p2, by omega, by simpa using p4, by simp at p5 ⊢; omega, fun ht => ⟨(p6 ht).1, ?_⟩⟩
          have := (p6 ht).2
          simp at this ⊢; omega
      · rw [if_neg hc, if_neg hc]
        exact ⟨a :: st, b, false, l, rfl, h, Nat.le_refl _, rfl, Nat.le_refl _, fun _ => ⟨rfl, rfl⟩⟩

/-- one call: as without exceptions; or thrown with nothing changed; or a zero too many is left behind -/
theorem pushBackA_spec (env : PushEnv) (s : CartesianBuilder α) (x : α) (l : List Bool) (h : Succinct.Inv s.bp l) :
    ∃ s' t l', pushBackA comp env s x = some (s', t) ∧ Succinct.Inv s'.bp l' ∧
      ((t = true ∧ s' = s) ∨ (l.length < l'.length ∧ l'.count false = l.count false + 1 ∧
        (if t then l'.count true + s'.stack.length ≤ l.count true + s.stack.length
         else pushBack comp s x = some s' ∧ l'.count true + s'.stack.length = l.count true + s.stack.length + 1))) := by
  unfold pushBackA pushBack
  rcases Builder.pushBackA_cases s.bp l h false env.growths with ⟨_, _, e⟩ | ⟨_, b1, k1, e, e', i1⟩
  · rw [e, bind_pure_some]
    exact ⟨s, true, l, rfl, h, .inl ⟨rfl, rfl⟩⟩
  · rw [e, bind_pure_some, e', bind_pure_some]
    obtain ⟨st', b', t, l', p1, p2, p3, p4, p5, p6⟩ := popLoopA_spec comp x s.stack k1 env.calls b1 _ i1
    simp only [List.length_append, List.length_singleton, List.count_append] at p3 p4 p5 p6
    simp only [Bool.false_eq_true, if_false]
    rw [p1, bind_pure_some]
    have q4 : l'.count false = l.count false + 1 := by simpa using p4
    have q5 : l'.count true + st'.length ≤ l.count true + s.stack.length := by simpa using p5
    cases t with
    | true =>
      exact ⟨⟨st', b'⟩, true, l', rfl, p2, .inr ⟨by omega, q4, by simpa using q5⟩⟩
    | false =>
      obtain ⟨r1, r2⟩ := p6 rfl
      have q6 : l'.count true + st'.length = l.count true + s.stack.length := by simpa using r2
      rw [r1, bind_pure_some]
      simp only [Bool.false_eq_true, if_false]
      by_cases hc : env.copy = true
      · rw [if_pos hc]
        exact ⟨⟨x :: st', b'⟩, false, l', rfl, p2, .inr ⟨by omega, q4, by simp; omega⟩⟩
      · rw [if_neg hc]
        exact ⟨⟨st', b'⟩, true, l', rfl, p2, .inr ⟨by omega, q4, by simpa using q5⟩⟩

/-- the values of the calls that did not throw -/
def kept {β : Type} : List (α × β) → List (Bool × Bool) → List α
  | (x, _) :: cs, o :: outs => if o.1 then kept cs outs else x :: kept cs outs
  | _, _ => []

theorem runA_spec : ∀ (cs : List (α × PushEnv)) (s : CartesianBuilder α) (l : List Bool) (d : Nat), Succinct.Inv s.bp l → l.count true + s.stack.length + d ≤ l.count false →
    ∃ s' outs l' d', runA comp cs s = some (s', outs) ∧ outs.length = cs.length ∧ Succinct.Inv s'.bp l' ∧ l'.count true + s'.stack.length + d' ≤ l'.count false ∧ d ≤ d' ∧
      l'.count false ≤ l.count false + cs.length ∧
      (if outs.any (fun o => o.1 && o.2) then d < d' else pushAll comp (kept cs outs) s = some s') := by
  intro cs
  induction cs with
  | nil => intro s l d h hd; exact ⟨s, [], l, d, rfl, rfl, h, hd, Nat.le_refl _, Nat.le_refl _, rfl⟩
  | cons c cs ih =>
    obtain ⟨x, env⟩ := c
    intro s l d h hd
    obtain ⟨s1, t, l1, e1, i1, hh⟩ := pushBackA_spec comp env s x l h
    rcases hh with ⟨rfl, rfl⟩ | ⟨g1, g2, g3⟩
    · obtain ⟨s2, outs, l2, d2, e2, n2, i2, j1, j2, j3, j4⟩ := ih s1 l d h hd
      refine ⟨s2, (true, false) :: outs, l2, d2, ?_, by simp [n2], i2, j1, j2, by simp; omega, ?_⟩
      · unfold runA
        rw [e1, bind_pure_some]
        dsimp only
        rw [e2, bind_pure_some]; simp
      · simpa [kept] using j4
    · have hsz : decide (s1.bp.size ≠ s.bp.size) = true := by
        rw [i1.size, h.size]; simp; omega
      cases t with
      | true =>
        simp only [if_true] at g3
        obtain ⟨s2, outs, l2, d2, e2, n2, i2, j1, j2, j3, j4⟩ := ih s1 l1 (d + 1) i1 (by omega)
        refine ⟨s2, (true, true) :: outs, l2, d2, ?_, by simp [n2], i2, j1, by omega, by simp; omega, by simpa using by omega⟩
        unfold runA
        rw [e1, bind_pure_some]
        dsimp only
        rw [e2, bind_pure_some, hsz]; rfl
      | false =>
        simp only [Bool.false_eq_true, if_false] at g3
        obtain ⟨s2, outs, l2, d2, e2, n2, i2, j1, j2, j3, j4⟩ := ih s1 l1 d i1 (by omega)
        refine ⟨s2, (false, true) :: outs, l2, d2, ?_, by simp [n2], i2, j1, j2, by simp; omega, ?_⟩
        · unfold runA
          rw [e1, bind_pure_some]
          dsimp only
          rw [e2, bind_pure_some, hsz]; rfl
        · simp only [List.any_cons, Bool.false_and, Bool.false_or, kept, Bool.false_eq_true, if_false]
          split
          · rename_i ha; rw [if_pos ha] at j4; exact j4
          · rename_i ha; rw [if_neg ha] at j4
            unfold pushAll
            rw [g3.1, bind_pure_some, j4]

end CartesianBuilder

theorem count_bool (l : List Bool) : l.length = l.count true + l.count false := by
  induction l with
  | nil => rfl
  | cons a l ih => cases a <;> simp [ih] <;> omega

/-- **C98**, `cartesian_tree::builder`.  A caller catches the exceptions out of `push_back` (no memory for the bits or the stack, a comparator or a copy that
throws) and goes on.  If the calls that threw have left the number of bits as it was, the builder is that of the other values; if one of them has changed it,
what `finalize` makes has more closing than opening parentheses, however the history goes on, and the constructor of `cartesian_tree` fails an assertion.  In any case a history of `n` calls takes no more room than `builder(n)` reserves. -/
theorem C98_cartesian {α : Type} (comp : α → α → Bool) (cs : List (α × PushEnv)) (expected : Nat) (r : Bool) :
    ∃ s0 s outs b l, CartesianBuilder.new expected r = some s0 ∧ CartesianBuilder.runA comp cs s0 = some (s, outs) ∧ outs.length = cs.length ∧
      CartesianBuilder.finalize s = some b ∧ BitVector.ofBuilder b = some (BitVector.ofRange l) ∧ b.bits.length ≤ wordsFor (2 * cs.length + 2) ∧
      (if outs.any (fun o => o.1 && o.2) then l.count true < l.count false ∧ (cs.length < 2^30 - 1 → CartesianTree.ofBuilder s = none) else CartesianBuilder.pushAll comp (CartesianBuilder.kept cs outs) s0 = some s) := by
  obtain ⟨s0, e0, h0⟩ := CartesianBuilder.new_ok (α := α) expected r
  have i0 : Succinct.Inv s0.bp [] := by simpa using h0.bp
  have k0 : s0.stack = [] := h0.stack
  obtain ⟨s, outs, l, d, e1, n1, i1, j1, j2, j3, j4⟩ := CartesianBuilder.runA_spec comp cs s0 [] 0 i0 (by rw [k0]; simp)
  have hfin : ∃ b l', CartesianBuilder.finalize s = some b ∧ Succinct.Inv b l' ∧ l'.count false = l.count false + 1 ∧
      l'.count true = l.count true + s.stack.length + 1 := by
    unfold CartesianBuilder.finalize
    obtain ⟨b1, a1, q1⟩ := Builder.pushBack_inv s.bp _ i1 false
    obtain ⟨b2, a2, q2⟩ := CartesianBuilder.drainLoop_spec s.stack b1 _ q1
    obtain ⟨b3, a3, q3⟩ := Builder.pushBack_inv b2 _ q2 true
    obtain ⟨b4, a4, q4⟩ := Builder.reverse_inv b3 _ q3
    rw [a1, bind_pure_some, a2, bind_pure_some, a3, bind_pure_some, a4]
    exact ⟨b4, _, rfl, q4, by simp [List.count_replicate], by simp [List.count_replicate]; omega⟩
  obtain ⟨b, l', e2, i2, c0, c1⟩ := hfin
  obtain ⟨v, ev, hv⟩ := BitVector.ofBuilder_rep b l' i2
  have hl := count_bool l'
  refine ⟨s0, s, outs, b, l', e0, e1, n1, e2, by rw [ev, BitVector.eq_ofRange hv], ?_, ?_⟩
  · have := i2.len
    simp at j3
    unfold wordsFor at *
    omega
  · split
    · rename_i ha
      rw [if_pos ha] at j4
      have hlt : l'.count true < l'.count false := by omega
      refine ⟨hlt, fun hc => ?_⟩
      unfold CartesianTree.ofBuilder
      rw [e2, bind_pure_some, ev, bind_pure_some, BitVector.eq_ofRange hv]
      cases hB : BpVector.build (BitVector.ofRange l') false true with
      | none => rfl
      | some t =>
        have h1 := BpVector.build_prefix l' false true (by simp at j3; omega) t hB l'.length (Nat.le_refl _)
        rw [← spec_excess_eq l' _ (Nat.le_refl _)] at h1
        unfold Spec.excess at h1
        rw [List.take_length] at h1
        omega
    · rename_i ha
      rw [if_neg ha] at j4
      exact j4

namespace Darray64

theorem append1TailA_spec (b b' : Darray64Builder) (s1 : Builder) (l : List Bool) (hi : Succinct.Inv s1 l) (hb : s1.size ≥ b.bits.size) (k : Nat) (block sub : Bool)
    (e : (do
      let bits ← s1.pushBack true
      let last ← subU bits.size 1
      let block := if b.nOnes % 1024 = 0 then b.block ++ [last] else b.block
      let subblock ←
        if b.nOnes % 64 = 0 then do
          let base ← rd block (b.nOnes / 1024)
          let d ← subU last base
          pure (b.subblock ++ [d % 2^16])
        else pure b.subblock
      pure (⟨b.nOnes + 1, bits, block, subblock⟩ : Darray64Builder)) = some b') :
    ∃ b2 t, append1TailA k block sub b s1 = some (b2, t) ∧ (t = false → b2 = b') ∧ (t = true → (b2 = b ↔ s1 = b.bits ∧ l.length % 64 = 0 ∧ k = 0)) := by
  have hne : ∀ (b2 : Darray64Builder), b.bits.size < b2.bits.size → b2 ≠ b := by
    intro b2 h e; rw [e] at h; omega
  unfold append1TailA
  rcases Builder.pushBackA_cases s1 l hi true k with ⟨g1, g2, e1⟩ | ⟨g, s2, k2, e1, e2, i2⟩
  · rw [e1, bind_pure_some]
    refine ⟨_, true, rfl, (nomatch ·), fun _ => ⟨fun h => ⟨?_, g1, g2⟩, fun h => ?_⟩⟩
    · have := congrArg Darray64Builder.bits h; exact this
    · cases b; simp_all
  · rw [e2, bind_pure_some] at e
    rw [e1, bind_pure_some]
    have hsz : b.bits.size < s2.size := by
      rw [i2.size]; rw [hi.size] at hb; simp; omega
    simp only [Bool.false_eq_true, if_false]
    cases e3 : subU s2.size 1 with
    | none => rw [e3] at e; cases e
    | some last =>
      rw [e3, bind_pure_some] at e
      rw [bind_pure_some]
      by_cases c1 : b.nOnes % 1024 = 0 ∧ block = false
      · rw [if_pos c1]
        exact ⟨_, true, rfl, (nomatch ·), fun _ => ⟨fun h => absurd h (hne _ hsz), fun h => absurd ⟨h.2.1, h.2.2⟩ g⟩⟩
      · rw [if_neg c1]
        generalize (if b.nOnes % 1024 = 0 then b.block ++ [last] else b.block) = bl at *
        by_cases c2 : b.nOnes % 64 = 0
        · simp only [if_pos c2] at e ⊢
          cases e4 : rd bl (b.nOnes / 1024) with
          | none => rw [e4] at e; cases e
          | some base =>
            cases e5 : subU last base with
            | none => rw [e4, bind_pure_some, e5] at e; cases e
            | some d =>
              rw [e4, bind_pure_some, e5, bind_pure_some] at e
              rw [bind_pure_some, e5, bind_pure_some]
              cases sub with
              | false => exact ⟨_, true, rfl, (nomatch ·), fun _ => ⟨fun h => absurd h (hne _ hsz), fun h => absurd ⟨h.2.1, h.2.2⟩ g⟩⟩
              | true => exact ⟨_, false, rfl, fun _ => Option.some.inj e, (nomatch ·)⟩
        · simp only [if_neg c2] at e ⊢
          exact ⟨_, false, rfl, fun _ => Option.some.inj e, (nomatch ·)⟩

theorem append1A_spec (b b' : Darray64Builder) (l : List Bool) (hi : Succinct.Inv b.bits l) (skip : Nat) (hs : skip ≤ 64) (e : append1 b skip = some b')
    (k : Nat) (block sub : Bool) : ∃ b2 t, append1A k block sub b skip = some (b2, t) ∧ (t = false → b2 = b') ∧
      (t = true → (b2 = b ↔ skip = 0 ∧ l.length % 64 = 0 ∧ k = 0)) := by
  unfold append1 at e
  have hf : Fits (0 : Word) skip := ⟨hs, by simp [Nat.two_pow_pos]⟩
  obtain ⟨s1, a1, a2⟩ := Builder.appendBitsA_eq b.bits l hi 0 skip hf k
  obtain ⟨s1', a3, i1⟩ := Builder.appendBits_inv b.bits l hi 0 skip hf
  have e1 := a1
  rw [a1] at a3
  cases a3
  rw [a1, bind_pure_some] at e
  have z1 : s1.size = l.length + skip := by rw [i1.size]; simp
  have z0 := hi.size
  have hs0 : skip = 0 → s1 = b.bits := by
    intro h0
    subst h0
    unfold Builder.appendBits at e1
    rw [Builder.noSpurious_eq hf] at e1
    simp at e1
    exact e1.symm
  have hs1 : s1 = b.bits → skip = 0 := by
    intro h; rw [h] at z1; omega
  unfold append1A
  rw [a2, bind_pure_some]
  by_cases hg : wordCount (l.length + skip) ≠ wordCount l.length
  · have h0 : skip ≠ 0 := by rintro rfl; exact hg rfl
    rw [if_pos hg]
    by_cases hk : k = 0
    · rw [if_pos hk]
      refine ⟨_, true, rfl, (nomatch ·), fun _ => ⟨fun h => ?_, fun h => absurd h.1 h0⟩⟩
      have := congrArg (fun b => b.bits.size) h
      simp only at this
      omega
    · rw [if_neg hk]
      obtain ⟨b2, t, g1, g2, g3⟩ := append1TailA_spec b b' s1 _ i1 (by omega) (k - 1) block sub e
      refine ⟨b2, t, by simpa using g1, g2, fun h => (g3 h).trans ⟨fun q => absurd (hs1 q.1) h0, fun q => absurd q.1 h0⟩⟩
  · rw [if_neg hg]
    obtain ⟨b2, t, g1, g2, g3⟩ := append1TailA_spec b b' s1 _ i1 (by omega) k block sub e
    refine ⟨b2, t, by simpa using g1, g2, fun h => (g3 h).trans ⟨fun q => ?_, fun q => ?_⟩⟩
    · have h0 := hs1 q.1
      have h1 := q.2.1
      rw [List.length_append, lowBits_length, h0, Nat.add_zero] at h1
      exact ⟨h0, h1, q.2.2⟩
    · have h1 := q.2.1
      refine ⟨hs0 q.1, ?_, q.2.2⟩
      rw [List.length_append, lowBits_length, q.1, Nat.add_zero]; exact h1

end Darray64

/-- **C98**, `darray64::builder`: an exception out of `append1` leaves the builder as it was only if no zeros were to be appended and it is the vector of
bits that could not grow; otherwise the call must not be repeated.  Without exception the call does what it always does. -/
theorem C98_darray64 (ks : List Nat) (hk : ∀ k ∈ ks, k ≤ 64) (skip : Nat) (hs : skip ≤ 64) (k : Nat) (block sub : Bool) :
    ∃ b0 b b' b2 t, Darray64.new = some b0 ∧ ks.foldlM Darray64.append1 b0 = some b ∧ Darray64.append1 b skip = some b' ∧
      Darray64.append1A k block sub b skip = some (b2, t) ∧ (t = false → b2 = b') ∧
      (t = true → (b2 = b ↔ skip = 0 ∧ (ks.sum + ks.length) % 64 = 0 ∧ k = 0)) := by
  obtain ⟨b0, e0, g0⟩ := Darray64.new_good
  obtain ⟨b, e1, g1⟩ := Darray64.fold_good ks b0 [] g0 (by simpa using hk)
  rw [List.nil_append] at g1
  obtain ⟨b', e2, _⟩ := Darray64.append1_good b ks skip g1 hs hk
  obtain ⟨b2, t, h1, h2, h3⟩ := Darray64.append1A_spec b b' _ g1.bits skip hs e2 k block sub
  rw [unary_length] at h3
  exact ⟨b0, b, b', b2, t, e0, e1, e2, h1, h2, h3⟩

/-- 64 zeros fit, the one behind them does not: the repeated call appends the zeros again, and `select(0)` is 128 instead of 64 -/
theorem C98_darray64_retry_false : ∃ b0 b1 b2, Darray64.new = some b0 ∧ Darray64.append1A 1 true true b0 64 = some (b1, true) ∧
    Darray64.append1A 9 true true b1 64 = some (b2, false) ∧ (Darray64.ofBuilder b2 >>= fun d => d.select 0) = some 128 ∧
    (Darray64.append1 b0 64 >>= Darray64.ofBuilder >>= fun d => d.select 0) = some 64 :=
  ⟨⟨0, ⟨[], 0, none⟩, [], []⟩, ⟨0, ⟨[0], 64, some 0⟩, [], []⟩, ⟨1, ⟨[0, 0, 1], 129, some 2⟩, [128], [0]⟩, rfl, by rfl, by rfl, by decide +kernel⟩

/-- the hypotheses with three ones of which the third starts the second word, and a call that must not be repeated -/
example : (Darray64.new >>= fun b => [10, 50, 1].foldlM Darray64.append1 b).map (fun b => b.bits.size) = some 64 ∧
    (Darray64.new >>= fun b => [10, 50, 1].foldlM Darray64.append1 b >>= fun b => Darray64.append1A 0 true true b 0).map (fun r => (r.1.bits.size, r.1.nOnes, r.2)) = some (64, 3, true) ∧
    (Darray64.new >>= fun b => [10, 50, 1].foldlM Darray64.append1 b >>= fun b => Darray64.append1A 0 true true b 7).map (fun r => (r.1.bits.size, r.1.nOnes, r.2)) = some (71, 3, true) := by
  decide +kernel

/-- of 5, 6, 3 the first call fails for lack of memory and is repeated; the builder is that of 5, 6, 3 -/
example : (CartesianBuilder.new 0 false >>= CartesianBuilder.runA (fun a b : Nat => decide (a < b))
    [(5, ⟨0, 9, true⟩), (5, ⟨9, 9, true⟩), (6, ⟨9, 9, true⟩), (3, ⟨9, 9, true⟩)] >>= fun r => CartesianTree.ofBuilder r.1 >>= fun t => some (r.2, t.rmq 0 2)) =
    some ([(true, false), (false, true), (false, true), (false, true)], some 2) := by decide +kernel

/-- of 5, 6, 3 the comparator throws when 3 is compared with 5, after 6 has been removed; the repeated call succeeds, but no tree can be made -/
example : (CartesianBuilder.new 0 false >>= CartesianBuilder.runA (fun a b : Nat => decide (a < b))
    [(5, ⟨9, 9, true⟩), (6, ⟨9, 9, true⟩), (3, ⟨9, 1, true⟩), (3, ⟨9, 9, true⟩)] >>= fun r => some (r.2, r.1.stack, (CartesianTree.ofBuilder r.1).isSome)) =
    some ([(false, true), (false, true), (true, true), (false, true)], [3], false) := by decide +kernel

end Succinct
