import Verif.Model.ReleaseRmq
import Verif.Lemmas.ReleaseSeq
import Verif.Lemmas.Release

/-! `excess_rmq`, `rmq` and the top-k queries without assertions answer what they answer with assertions. -/
namespace Succinct
namespace Release
open Broadword
open Machine (at_ s32 vlen)
open Machine.Bp (Rmq rmqInWord)
open Machine.BpVector (Walk betterNode minLeaf padA padB minW)

theorem Below.trans {α : Type} {x y z : Option α} (h : Below x y) (k : Below y z) : Below x z := fun r hr => k r (h r hr)

theorem blockExcess_below (rs : Machine.RSBitVector) (b : Word) : Below (Machine.BpVector.blockExcess rs b) (blockExcess rs b) :=
  fun _ h => blockExcess_of h

theorem excess_below (v : Machine.BpVector) (p : Word) : Below (v.excess p) (excess v p) := fun _ h => excess_of h

theorem rmqWords_mono (bits : List Word) (stop : Word) (fuel : Nat) : ∀ (k : Nat) (w : Word) (s : Rmq), fuel ≤ k →
    Below (Machine.BpVector.rmqWords bits stop fuel w s) (Machine.BpVector.rmqWords bits stop k w s) := by
  induction fuel with
  | zero =>
    intro k w s _
    unfold Machine.BpVector.rmqWords
    by_cases h : w < stop
    · rw [if_pos h]; exact Below.none
    · rw [if_neg h, if_neg h]; exact Below.rfl
  | succ fuel ih =>
    intro k w s hk
    obtain ⟨k, rfl⟩ : ∃ j, k = j + 1 := ⟨k - 1, by omega⟩
    unfold Machine.BpVector.rmqWords
    exact Below.ite (Below.keep fun _ => Below.keep fun _ => ih k _ _ (by omega)) Below.rfl

theorem rmqInBlock_below (bits : List Word) (start stop : Word) (s : Rmq) :
    Below (Machine.BpVector.rmqInBlock bits start stop s) (rmqInBlock bits start stop s) :=
  Below.drop fun _ => Below.ite Below.rfl (Below.drop fun _ => rmqWords_mono _ _ _ _ _ _ (by omega))

theorem rmqBlocks_mono (mins : List Int) (x : Int) (stop : Word) (fuel : Nat) : ∀ (k : Nat) (w : Word) (s : Int × Word), fuel ≤ k →
    Below (Machine.BpVector.rmqBlocks mins x stop fuel w s) (Machine.BpVector.rmqBlocks mins x stop k w s) := by
  induction fuel with
  | zero =>
    intro k w s _
    unfold Machine.BpVector.rmqBlocks
    by_cases h : w < stop
    · rw [if_pos h]; exact Below.none
    · rw [if_neg h, if_neg h]; exact Below.rfl
  | succ fuel ih =>
    intro k w s hk
    obtain ⟨k, rfl⟩ : ∃ j, k = j + 1 := ⟨k - 1, by omega⟩
    unfold Machine.BpVector.rmqBlocks
    exact Below.ite (Below.keep fun _ => Below.keep fun _ => ih k _ _ (by omega)) Below.rfl

theorem rmqInSuperblock_below (v : Machine.BpVector) (start stop : Word) (s : Int × Word) :
    Below (Machine.BpVector.rmqInSuperblock v start stop s) (rmqInSuperblock v start stop s) :=
  Below.drop fun _ => Below.ite Below.rfl
    (Below.drop fun _ => Below.bind (blockExcess_below _ _) fun _ => rmqBlocks_mono _ _ _ _ _ _ _ (by omega))

theorem walkUp_below (tree : List Int) (stop : Word) (fuel : Nat) : ∀ (k : Nat) (s : Walk), fuel ≤ k →
    Below (Machine.BpVector.walkUp tree stop fuel s) (walkUp tree stop k s) := by
  induction fuel with
  | zero => intro k s _; exact Below.none
  | succ fuel ih =>
    intro k s hk
    obtain ⟨k, rfl⟩ : ∃ j, k = j + 1 := ⟨k - 1, by omega⟩
    unfold Machine.BpVector.walkUp walkUp
    exact Below.drop fun _ => Below.ite (Below.keep fun _ => Below.keep fun _ => Below.ite Below.rfl (ih k _ (by omega))) (ih k _ (by omega))

theorem walkDown_below (tree : List Int) (stop : Word) (fuel : Nat) : ∀ (k : Nat) (s : Walk), fuel ≤ k →
    Below (Machine.BpVector.walkDown tree stop fuel s) (walkDown tree stop k s) := by
  induction fuel with
  | zero =>
    intro k s _
    unfold Machine.BpVector.walkDown walkDown
    by_cases h : s.span > stop - 1
    · rw [if_pos h]; exact Below.none
    · rw [if_neg h, if_neg h]; exact Below.rfl
  | succ fuel ih =>
    intro k s hk
    obtain ⟨k, rfl⟩ : ∃ j, k = j + 1 := ⟨k - 1, by omega⟩
    unfold Machine.BpVector.walkDown walkDown
    exact Below.ite (Below.drop fun _ => Below.drop fun _ => Below.keep fun _ =>
      Below.ite (ih k _ (by omega)) (Below.keep fun _ => ih k _ (by omega))) Below.rfl

theorem findMinSuperblock_below (v : Machine.BpVector) (start stop : Word) (s : Int × Word) :
    Below (Machine.BpVector.findMinSuperblock v start stop s) (findMinSuperblock v start stop s) :=
  Below.ite Below.rfl (Below.keep fun _ => Below.ite Below.rfl (Below.bind (walkUp_below _ _ _ _ _ (by omega)) fun _ =>
    Below.drop fun _ => Below.bind (walkDown_below _ _ _ _ _ (by omega)) fun _ => Below.keep fun _ => Below.drop fun _ =>
      Below.ite (Below.keep fun _ => Below.drop fun _ => Below.drop fun _ => Below.drop fun _ => Below.drop fun _ => Below.rfl) Below.rfl))

theorem rmqSuper_below (v : Machine.BpVector) (t : Int × Word) (m : Int) (s : Int × Word) :
    Below (Machine.BpVector.rmqSuper v t m s) (rmqSuper v t m s) := Below.ite (rmqInSuperblock_below _ _ _ _) Below.rfl

theorem rmqMiddle_below (v : Machine.BpVector) (ba bb : Word) (m : Int) : Below (Machine.BpVector.rmqMiddle v ba bb m) (rmqMiddle v ba bb m) :=
  Below.ite (rmqInSuperblock_below _ _ _ _) (Below.bind (rmqInSuperblock_below _ _ _ _) fun _ =>
    Below.bind (findMinSuperblock_below _ _ _ _) fun _ => Below.bind (rmqSuper_below _ _ _ _) fun _ => rmqInSuperblock_below _ _ _ _)

theorem Below.dropAfter {α : Type} {x y : Option α} {f : α → Option α} (h : Below x y) (k : ∀ a, Below (f a) (some a)) : Below (x >>= f) y := by
  intro r hr
  rw [Option.bind_eq_bind, Option.bind_eq_some_iff] at hr
  obtain ⟨a, h1, h2⟩ := hr
  rw [← k a r h2]; exact h a h1

theorem rmqBest_below (v : Machine.BpVector) (b : Int × Word) (s : Rmq) : Below (Machine.BpVector.rmqBest v b s) (rmqBest v b s) :=
  Below.ite (Below.bind (blockExcess_below _ _) fun _ => Below.dropAfter (rmqInBlock_below _ _ _ _) fun _ => Below.drop fun _ => Below.rfl) Below.rfl

theorem rmqInner_below (v : Machine.BpVector) (wa wb : Word) (s : Rmq) : Below (Machine.BpVector.rmqInner v wa wb s) (rmqInner v wa wb s) :=
  Below.ite (rmqInBlock_below _ _ _ _) (Below.bind (rmqInBlock_below _ _ _ _) fun _ => Below.bind (rmqMiddle_below _ _ _ _) fun _ =>
    Below.bind (rmqBest_below _ _ _) fun _ => Below.bind (blockExcess_below _ _) fun _ => rmqInBlock_below _ _ _ _)

theorem excessRmq_below (v : Machine.BpVector) (a b : Word) : Below (v.excessRmq a b) (excessRmq v a b) :=
  Below.drop fun _ => Below.bind (excess_below _ _) fun _ => Below.ite Below.rfl (Below.keep fun _ => Below.keep fun _ => Below.keep fun _ =>
    Below.ite Below.rfl (Below.keep fun _ => Below.bind (rmqInner_below _ _ _ _) fun _ => Below.keep fun _ => Below.keep fun _ =>
      Below.keep fun _ => Below.drop fun _ => Below.drop fun _ => Below.drop fun _ => Below.rfl))

theorem cartRmq_below (t : Machine.CartesianTree) (a b : Word) : Below (t.rmq a b) (cartRmq t a b) := by
  intro r hr
  unfold Machine.CartesianTree.rmq at hr
  unfold cartRmq
  rw [Option.bind_eq_bind, Option.bind_eq_some_iff] at hr
  obtain ⟨_, _, hr⟩ := hr
  by_cases h : a = b
  · rw [if_pos h] at hr ⊢; exact hr
  · rw [if_neg h] at hr ⊢
    simp only [Option.bind_eq_bind, Option.bind_eq_some_iff] at hr ⊢
    obtain ⟨tp, h1, e1, h2, _, _, _, _, x, h3, y, h4, ⟨w, ew⟩, h5, _, _, _, _, _, _, _, _, h6⟩ := hr
    exact ⟨tp, rsSelect0_below _ _ _ h1, x, rsSelect0_below _ _ _ h3, y, rsSelect0_below _ _ _ h4, (w, ew), excessRmq_below _ _ _ _ h5,
      e1, h2, h6⟩

namespace TopK
variable {V α : Type} {c c' : Machine.Container V α}

/-- the container of the build without assertions gives the answers of the other -/
def Follows (c c' : Machine.Container V α) : Prop := ∀ v i, Below (c.get v i) (c'.get v i)

theorem elemFor_below (hc : Follows c c') (t : Machine.TopK V) (a b : Word) :
    Below (Machine.TopKEnum.elemFor c t a b) (elemFor c' t a b) :=
  Below.bind (cartRmq_below _ _ _) fun _ => Below.bind (hc _ _) fun _ => Below.rfl

theorem getEnumerator_below (hc : Follows c c') (t : Machine.TopK V) (a b : Word) (e : Machine.TopKEnum V α) :
    Below (t.getEnumerator c a b e) (getEnumerator c' t a b e) :=
  Below.drop fun _ => Below.bind (elemFor_below hc _ _ _) fun _ => Below.rfl

theorem pushLeft_below (hc : Follows c c') (h : HeapOps (Machine.QElem α)) (t : Option (Machine.TopK V)) (x : Machine.QElem α)
    (q : List (Machine.QElem α)) : Below (Machine.TopKEnum.pushLeft c h t x q) (pushLeft c' h t x q) :=
  Below.ite (Below.keep fun _ => Below.bind (elemFor_below hc _ _ _) fun _ => Below.rfl) Below.rfl

theorem pushRight_below (hc : Follows c c') (h : HeapOps (Machine.QElem α)) (t : Option (Machine.TopK V)) (x : Machine.QElem α)
    (q : List (Machine.QElem α)) : Below (Machine.TopKEnum.pushRight c h t x q) (pushRight c' h t x q) :=
  Below.ite (Below.keep fun _ => Below.bind (elemFor_below hc _ _ _) fun _ => Below.rfl) Below.rfl

theorem next_below (hc : Follows c c') (h : HeapOps (Machine.QElem α)) (e : Machine.TopKEnum V α) : Below (e.next c h) (next c' h e) := by
  unfold Machine.TopKEnum.next next
  by_cases he : e.q = []
  · rw [if_pos he, if_pos he]; exact Below.rfl
  · rw [if_neg he, if_neg he]
    exact Below.keep fun _ => Below.keep fun _ => Below.bind (pushLeft_below hc _ _ _ _) fun _ =>
      Below.bind (pushRight_below hc _ _ _ _) fun _ => Below.rfl

theorem nexts_below (hc : Follows c c') (h : HeapOps (Machine.QElem α)) (k : Nat) : ∀ e : Machine.TopKEnum V α,
    Below (e.nexts c h k) (nexts c' h k e) := by
  induction k with
  | zero => intro e; exact Below.rfl
  | succ k ih =>
    intro e
    refine Below.bind (next_below hc h e) fun x => ?_
    exact Below.ite (Below.keep fun _ => Below.bind (ih _) fun _ => Below.rfl) (Below.bind (ih _) fun _ => Below.rfl)

theorem topkLoop_below (hc : Follows c c') (h : HeapOps (Machine.QElem α)) (n : Word) (fuel : Nat) :
    ∀ (i : Word) (e : Machine.TopKEnum V α) (acc : List (α × Word)),
    Below ((Machine.TopK.topkLoop c h n fuel i e acc).map Prod.fst) (topkLoop c' h n fuel i e acc) := by
  induction fuel with
  | zero =>
    intro i e acc
    unfold Machine.TopK.topkLoop topkLoop
    by_cases hi : i < n
    · rw [if_pos hi]; exact Below.none
    · rw [if_neg hi, if_neg hi]; exact Below.rfl
  | succ fuel ih =>
    intro i e acc r hr
    unfold Machine.TopK.topkLoop at hr
    unfold topkLoop
    by_cases hi : i < n
    · rw [if_pos hi] at hr ⊢
      rw [Option.map_eq_some_iff] at hr
      obtain ⟨z, hr, rfl⟩ := hr
      simp only [Option.bind_eq_bind, Option.bind_eq_some_iff] at hr
      obtain ⟨⟨hn, e'⟩, h1, _, _, x, h2, h3⟩ := hr
      rw [next_below hc h e _ h1]
      dsimp only at h2 ⊢
      rw [RSBitVector.bind_pure_some]
      dsimp only
      rw [h2, RSBitVector.bind_pure_some]
      exact ih _ _ _ _ (by rw [h3]; rfl)
    · rw [if_neg hi] at hr ⊢; exact hr

theorem topk_below (hc : Follows c c') (h : HeapOps (Machine.QElem α)) (t : Machine.TopK V) (a b k : Word) :
    Below (t.topk c h a b k) (topk c' h t a b k) := by
  intro r hr
  unfold Machine.TopK.topk at hr
  unfold topk
  simp only [Option.bind_eq_bind, Option.bind_eq_some_iff] at hr ⊢
  obtain ⟨e, h1, ⟨ret, e'⟩, h2, _, _, h3⟩ := hr
  cases h3
  exact ⟨e, getEnumerator_below hc _ _ _ _ _ h1, topkLoop_below hc h _ _ _ _ _ _ (by rw [h2]; rfl)⟩

end TopK
end Release
end Succinct
