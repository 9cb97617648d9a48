import Verif.Model.ReleaseRank

/-! The queries without assertions answer what the queries with assertions answer. -/
namespace Succinct
namespace Release
open Broadword
open Machine (at_ vlen)

/-- wherever `x` has a value, `y` has the same -/
def Below {α : Type} (x y : Option α) : Prop := ∀ r, x = some r → y = some r

theorem Below.rfl {α : Type} {x : Option α} : Below x x := fun _ h => h
theorem Below.none {α : Type} {x : Option α} : Below Option.none x := fun _ h => by simp at h

theorem Below.bind {α β : Type} {x y : Option α} {f g : α → Option β} (h : Below x y) (k : ∀ a, Below (f a) (g a)) :
    Below (x >>= f) (y >>= g) := by
  intro r hr
  rw [Option.bind_eq_bind, Option.bind_eq_some_iff] at hr ⊢
  obtain ⟨a, h1, h2⟩ := hr
  exact ⟨a, h a h1, k a r h2⟩

theorem Below.keep {α β : Type} {x : Option α} {f g : α → Option β} (k : ∀ a, Below (f a) (g a)) : Below (x >>= f) (x >>= g) :=
  Below.bind Below.rfl k

theorem Below.drop {α β : Type} {x : Option α} {f : α → Option β} {y : Option β} (k : ∀ a, Below (f a) y) : Below (x >>= f) y := by
  intro r hr
  rw [Option.bind_eq_bind, Option.bind_eq_some_iff] at hr
  obtain ⟨a, _, h2⟩ := hr
  exact k a r h2

theorem Below.ite {α : Type} {p : Prop} [Decidable p] {a b c d : Option α} (h : Below a c) (k : Below b d) :
    Below (if p then a else b) (if p then c else d) := by
  by_cases hp : p
  · rw [if_pos hp, if_pos hp]; exact h
  · rw [if_neg hp, if_neg hp]; exact k

theorem selectInWord_below (x : Word) (k : Nat) : Below (Broadword.selectInWord x k) (selectInWord x k) :=
  Below.drop fun _ => Below.rfl

theorem bvAccess_below (v : Machine.BitVector) (pos : Word) : Below (v.access pos) (bvAccess v pos) :=
  Below.drop fun _ => Below.drop fun _ => Below.rfl

theorem bvGetBits_below (ov : Word → Nat → Word) (v : Machine.BitVector) (pos len : Word) :
    Below (v.getBits ov pos len) (bvGetBits ov v pos len) := Below.drop fun _ => Below.rfl

theorem bvGetWord_below (v : Machine.BitVector) (pos : Word) : Below (v.getWord pos) (bvGetWord v pos) :=
  Below.drop fun _ => Below.rfl

theorem predLoop_below (neg : Bool) (bits : List Word) (fuel : Nat) (block word : Word) :
    Below (Machine.BitVector.predLoop neg bits fuel block word) (predLoop neg bits fuel block word) := by
  induction fuel generalizing block word with
  | zero =>
    unfold Machine.BitVector.predLoop predLoop
    cases msb word with
    | some r => exact Below.rfl
    | none => exact Below.drop fun _ => Below.rfl
  | succ fuel ih =>
    unfold Machine.BitVector.predLoop predLoop
    cases msb word with
    | some r => exact Below.rfl
    | none => exact Below.drop fun _ => Below.keep fun _ => ih _ _

theorem bvPredecessor_below (neg : Bool) (v : Machine.BitVector) (pos : Word) :
    Below (v.predecessor neg pos) (bvPredecessor neg v pos) :=
  Below.drop fun _ => Below.keep fun _ => Below.keep fun _ => Below.keep fun _ => predLoop_below _ _ _ _ _

theorem succLoop_below (neg : Bool) (bits : List Word) (fuel : Nat) (block word : Word) :
    Below (Machine.BitVector.succLoop neg bits fuel block word) (succLoop neg bits fuel block word) := by
  induction fuel generalizing block word with
  | zero =>
    unfold Machine.BitVector.succLoop succLoop
    cases lsb word with
    | some r => exact Below.rfl
    | none => exact Below.drop fun _ => Below.rfl
  | succ fuel ih =>
    unfold Machine.BitVector.succLoop succLoop
    cases lsb word with
    | some r => exact Below.rfl
    | none => exact Below.drop fun _ => Below.keep fun _ => ih _ _

theorem bvSuccessor_below (neg : Bool) (v : Machine.BitVector) (pos : Word) :
    Below (v.successor neg pos) (bvSuccessor neg v pos) :=
  Below.drop fun _ => Below.keep fun _ => Below.keep fun _ => Below.keep fun _ => succLoop_below _ _ _ _ _

theorem rank_below (v : Machine.RSBitVector) (pos : Word) : Below (v.rank pos) (rank v pos) := Below.drop fun _ => Below.rfl

theorem rank0_below (v : Machine.RSBitVector) (pos : Word) : Below (v.rank0 pos) (rank0 v pos) :=
  Below.bind (rank_below v pos) fun _ => Below.rfl

theorem rsSelect_below (v : Machine.RSBitVector) (n : Word) : Below (v.select n) (rsSelect v n) := by
  unfold Machine.RSBitVector.select rsSelect
  exact Below.drop fun _ => Below.drop fun _ => Below.keep fun ⟨_, _⟩ => Below.keep fun _ => Below.drop fun _ => Below.keep fun _ =>
    Below.drop fun _ => Below.keep fun _ => Below.keep fun _ => Below.drop fun _ => Below.keep fun _ =>
    Below.bind (selectInWord_below _ _) fun _ => Below.rfl

theorem rsSelect0_below (v : Machine.RSBitVector) (n : Word) : Below (v.select0 n) (rsSelect0 v n) := by
  unfold Machine.RSBitVector.select0 rsSelect0
  exact Below.drop fun _ => Below.drop fun _ => Below.keep fun ⟨_, _⟩ => Below.keep fun _ => Below.drop fun _ => Below.keep fun _ =>
    Below.drop fun _ => Below.keep fun _ => Below.keep fun _ => Below.drop fun _ => Below.keep fun _ =>
    Below.bind (selectInWord_below _ _) fun _ => Below.rfl

theorem selectLoop_below (get : Word → Option Word) (fuel : Nat) (word idx rem : Word) :
    Below (Machine.Darray.selectLoop get fuel word idx rem) (selectLoop get fuel word idx rem) := by
  induction fuel generalizing word idx rem with
  | zero => exact Below.rfl
  | succ fuel ih =>
    unfold Machine.Darray.selectLoop selectLoop
    dsimp only
    generalize (BitVec.ofNat 64 (popcount word) : Word) = pc
    exact Below.ite (Below.bind (selectInWord_below _ _) fun _ => Below.rfl) (Below.keep fun _ => ih _ _ _)

theorem selectFrom_below (get : Word → Option Word) (fuel : Nat) (start rem : Word) :
    Below (Machine.Darray.selectFrom get fuel start rem) (selectFrom get fuel start rem) := by
  unfold Machine.Darray.selectFrom selectFrom
  exact Below.ite Below.rfl (Below.keep fun _ => Below.keep fun _ => selectLoop_below _ _ _ _ _)

theorem daSelect_below (neg : Bool) (d : Machine.Darray) (bv : Machine.BitVector) (idx : Word) :
    Below (d.select neg bv idx) (daSelect neg d bv idx) := by
  unfold Machine.Darray.select daSelect
  exact Below.drop fun _ => Below.keep fun _ => Below.ite Below.rfl (Below.keep fun _ => selectFrom_below _ _ _ _)

theorem da64Select_below (d : Machine.Darray64) (idx : Word) : Below (d.select idx) (da64Select d idx) := by
  unfold Machine.Darray64.select da64Select
  exact Below.drop fun _ => Below.keep fun _ => Below.keep fun _ => selectFrom_below _ _ _ _

variable (ov : Word → Nat → Word)

theorem efLow_below (ef : Machine.EliasFano) (k : Word) : Below (ef.getLow ov k) (efLow ov ef k) := bvGetBits_below ov _ _ _

theorem efSelect_below (ef : Machine.EliasFano) (n : Word) : Below (ef.select ov n) (efSelect ov ef n) :=
  Below.bind (daSelect_below _ _ _ _) fun _ => Below.keep fun _ => Below.bind (efLow_below ov _ _) fun _ => Below.rfl

theorem efAccessLoop_below (ef : Machine.EliasFano) (lpos : Word) (fuel : Nat) (h r : Word) :
    Below (ef.accessLoop ov lpos fuel h r) (efAccessLoop ov ef lpos fuel h r) := by
  induction fuel generalizing h r with
  | zero =>
    unfold Machine.EliasFano.accessLoop efAccessLoop
    exact Below.ite (Below.bind (bvAccess_below _ _) fun _ => Below.ite Below.rfl Below.rfl) Below.rfl
  | succ fuel ih =>
    unfold Machine.EliasFano.accessLoop efAccessLoop
    exact Below.ite (Below.bind (bvAccess_below _ _) fun _ => Below.ite (Below.bind (efLow_below ov _ _) fun _ =>
      Below.ite Below.rfl (Below.ite Below.rfl (ih _ _))) Below.rfl) Below.rfl

theorem efAccess_below (ef : Machine.EliasFano) (pos : Word) : Below (ef.access ov pos) (efAccess ov ef pos) :=
  Below.drop fun _ => Below.drop fun _ => Below.keep fun _ => Below.bind (daSelect_below _ _ _ _) fun _ => Below.keep fun _ =>
    efAccessLoop_below ov _ _ _ _ _

theorem efRankLoop_below (ef : Machine.EliasFano) (lpos : Word) (fuel : Nat) (h r : Word) :
    Below (ef.rankLoop ov lpos fuel h r) (efRankLoop ov ef lpos fuel h r) := by
  induction fuel generalizing h r with
  | zero =>
    unfold Machine.EliasFano.rankLoop efRankLoop
    exact Below.ite (Below.bind (bvAccess_below _ _) fun _ => Below.ite (Below.bind (efLow_below ov _ _) fun _ =>
      Below.ite Below.rfl Below.rfl) Below.rfl) Below.rfl
  | succ fuel ih =>
    unfold Machine.EliasFano.rankLoop efRankLoop
    exact Below.ite (Below.bind (bvAccess_below _ _) fun _ => Below.ite (Below.bind (efLow_below ov _ _) fun _ =>
      Below.ite (ih _ _) Below.rfl) Below.rfl) Below.rfl

theorem efRank_below (ef : Machine.EliasFano) (pos : Word) : Below (ef.rank ov pos) (efRank ov ef pos) :=
  Below.drop fun _ => Below.drop fun _ => Below.ite Below.rfl (Below.keep fun _ => Below.bind (daSelect_below _ _ _ _) fun _ =>
    Below.keep fun _ => efRankLoop_below ov _ _ _ _ _)

theorem efPredecessor1_below (ef : Machine.EliasFano) (pos : Word) : Below (ef.predecessor1 ov pos) (efPredecessor1 ov ef pos) :=
  Below.bind (efRank_below ov _ _) fun _ => efSelect_below ov _ _

theorem efSuccessor1_below (ef : Machine.EliasFano) (pos : Word) : Below (ef.successor1 ov pos) (efSuccessor1 ov ef pos) :=
  Below.bind (efRank_below ov _ _) fun _ => efSelect_below ov _ _

theorem efDelta_below (ef : Machine.EliasFano) (n : Word) : Below (ef.delta ov n) (efDelta ov ef n) :=
  Below.bind (daSelect_below _ _ _ _) fun _ => Below.bind (efLow_below ov _ _) fun _ => Below.ite
    (Below.bind (bvPredecessor_below _ _ _) fun _ => Below.keep fun _ => Below.bind (efLow_below ov _ _) fun _ => Below.rfl) Below.rfl

theorem efSelectRange_below (ef : Machine.EliasFano) (n : Word) : Below (ef.selectRange ov n) (efSelectRange ov ef n) :=
  Below.drop fun _ => Below.bind (daSelect_below _ _ _ _) fun _ => Below.bind (efLow_below ov _ _) fun _ =>
    Below.bind (bvSuccessor_below _ _ _) fun _ => Below.bind (efLow_below ov _ _) fun _ => Below.keep fun _ => Below.keep fun _ => Below.rfl

end Release
end Succinct
