/-! # `mappable_vector.hpp`: ownership

The heap is a list of buffers, `none` once freed; a buffer is an index into it.  One buffer stands for the
array of `new T[size]` (constructor from a range) or for the `std::vector` on the heap together with its
elements (`steal`).  Mapped data lie in an image that outlives the vectors and belongs to none of them.
Not modelled here: exceptions (see `Model/MappableAlloc`); iterators obtained from a vector and kept by the caller (see
`Model/MappableIter`). -/
namespace Succinct.Mappable
variable {α : Type}

/-- `m_data` (`mappable_vector.hpp:119`) -/
inductive Ptr (α : Type)
  | null
  | heap (id : Nat)
  | image (elems : List α)

/-- `mappable_vector.hpp:119-121`; `deleter` is the buffer that `m_deleter` frees -/
structure Vec (α : Type) where
  data : Ptr α
  size : Nat
  deleter : Option Nat

/-- the memory obtained by `mappable_vector.hpp:45,76`; a buffer is `none` once freed -/
abbrev Heap (α : Type) := List (Option (List α))

/-- `new` (`mappable_vector.hpp:45,76`) -/
def alloc (h : Heap α) (xs : List α) : Heap α × Nat := (h ++ [some xs], h.length)

/-- `delete` / `delete[]` (the deleters bound in `mappable_vector.hpp:46,78`); undefined if the buffer is not allocated or already freed -/
def free (h : Heap α) (id : Nat) : Option (Heap α) :=
  match h[id]? with
  | some (some _) => some (h.set id none)
  | _ => none

/-- default constructor, `mappable_vector.hpp:33-37` -/
def Vec.empty : Vec α := ⟨.null, 0, none⟩

/-- constructor from a range, `mappable_vector.hpp:39-53` -/
def ctorRange (h : Heap α) (xs : List α) : Heap α × Vec α :=
  let (h, id) := alloc h xs
  (h, ⟨.heap id, xs.length, some id⟩)

/-- destructor, `mappable_vector.hpp:55-59` -/
def dtor (h : Heap α) (v : Vec α) : Option (Heap α) :=
  match v.deleter with
  | some id => free h id
  | none => some h

/-- `mappable_vector.hpp:61-66`: the pair (this, other) afterwards -/
def swap (v other : Vec α) : Vec α × Vec α :=
  (⟨other.data, other.size, other.deleter⟩, ⟨v.data, v.size, v.deleter⟩)

/-- `mappable_vector.hpp:68-70`: a temporary is swapped with `*this` and destroyed -/
def clear (h : Heap α) (v : Vec α) : Option (Heap α × Vec α) := do
  let (tmp, v) := swap Vec.empty v
  let h ← dtor h tmp
  pure (h, v)

/-- `mappable_vector.hpp:72-81`; `xs` is the content of the `std::vector`, which is empty afterwards -/
def steal (h : Heap α) (v : Vec α) (xs : List α) : Option (Heap α × Vec α) := do
  let (h, v) ← clear h v
  let v := { v with size := xs.length }
  if v.size ≠ 0 then
    let (h, id) := alloc h xs
    pure (h, { v with deleter := some id, data := .heap id })
  else pure (h, v)

/-- what the range `[begin(), end())` of a vector holds (`mappable_vector.hpp:93-99`); undefined if it
reaches outside its buffer or the buffer has been freed -/
def contents (h : Heap α) (v : Vec α) : Option (List α) :=
  match v.data with
  | .null => if v.size = 0 then some [] else none
  | .heap id =>
    match h[id]? with
    | some (some xs) => if v.size ≤ xs.length then some (xs.take v.size) else none
    | _ => none
  | .image xs => if v.size ≤ xs.length then some (xs.take v.size) else none

/-- `mappable_vector.hpp:101-104` -/
def get (h : Heap α) (v : Vec α) (i : Nat) : Option α :=
  if i < v.size then
    match v.data with
    | .null => none
    | .heap id =>
      match h[id]? with
      | some (some xs) => xs[i]?
      | _ => none
    | .image xs => xs[i]?
  else none

/-- `assign` (`mappable_vector.hpp:83-87`) from a range that does not depend on the vectors -/
def assign (h : Heap α) (v : Vec α) (xs : List α) : Option (Heap α × Vec α) := do
  let (h, v) ← clear h v
  let (h, tmp) := ctorRange h xs
  let (tmp, v) := swap tmp v
  let h ← dtor h tmp
  pure (h, v)

/-- `map_visitor::operator()(mappable_vector<T>&)`, `mapper.hpp:128-132`, for an image holding `xs` here -/
def mapImage (h : Heap α) (v : Vec α) (xs : List α) : Option (Heap α × Vec α) := do
  let (h, v) ← clear h v
  pure (h, { v with size := xs.length, data := .image xs })

/-- operations of a program on numbered `mappable_vector` objects (`mappable_vector.hpp:33-87`, `mapper.hpp:126-145`) -/
inductive Cmd (α : Type)
  /-- default construction -/
  | new (i : Nat)
  /-- construction from a range -/
  | newRange (i : Nat) (xs : List α)
  /-- construction from the range `[v_j.begin(), v_j.end())` (a vector itself is not accepted: the class is
  `boost::noncopyable`, `mappable_vector.hpp:27`) -/
  | newVec (i j : Nat)
  /-- `v_i.steal(vec)` -/
  | steal (i : Nat) (xs : List α)
  /-- `v_i.swap(v_j)` -/
  | swap (i j : Nat)
  | clear (i : Nat)
  | assign (i : Nat) (xs : List α)
  /-- `v_i.assign` of the range `[v_j.begin(), v_j.end())`, possibly `i = j`; the two pointers are taken before the call -/
  | assignVec (i j : Nat)
  /-- `v_i` is mapped to an image -/
  | map (i : Nat) (xs : List α)
  /-- the object ends its lifetime -/
  | destroy (i : Nat)

/-- the heap and the live `mappable_vector` objects (members `mappable_vector.hpp:119-121`) -/
structure State (α : Type) where
  heap : Heap α
  vecs : Nat → Option (Vec α)

/-- update of one object (its members `mappable_vector.hpp:119-121`) -/
def setAt {β : Type} (f : Nat → Option β) (i : Nat) (v : Option β) : Nat → Option β := fun k => if k = i then v else f k

/-- one operation (`mappable_vector.hpp:33-87`, `mapper.hpp:126-145`); `none` if it is undefined or uses an object outside its lifetime -/
def step (s : State α) : Cmd α → Option (State α)
  | .new i => match s.vecs i with
    | none => some ⟨s.heap, setAt s.vecs i (some Vec.empty)⟩
    | some _ => none
  | .newRange i xs => match s.vecs i with
    | none =>
      let (h, v) := ctorRange s.heap xs
      some ⟨h, setAt s.vecs i (some v)⟩
    | some _ => none
  | .newVec i j => match s.vecs i with
    | none => do
      let w ← s.vecs j
      let xs ← contents s.heap w
      let (h, v) := ctorRange s.heap xs
      pure ⟨h, setAt s.vecs i (some v)⟩
    | some _ => none
  | .steal i xs => do
    let v ← s.vecs i
    let (h, v) ← steal s.heap v xs
    pure ⟨h, setAt s.vecs i (some v)⟩
  | .swap i j => do
    let v ← s.vecs i
    let w ← s.vecs j
    let (v, w) := swap v w
    pure ⟨s.heap, setAt (setAt s.vecs i (some v)) j (some w)⟩
  | .clear i => do
    let v ← s.vecs i
    let (h, v) ← clear s.heap v
    pure ⟨h, setAt s.vecs i (some v)⟩
  | .assign i xs => do
    let v ← s.vecs i
    let (h, v) ← assign s.heap v xs
    pure ⟨h, setAt s.vecs i (some v)⟩
  | .assignVec i j => do
    let w ← s.vecs j
    let v ← s.vecs i
    -- lines 85-86: `*this` is cleared before the range is read
    let (h, v) ← clear s.heap v
    let xs ← contents h w
    let (h, tmp) := ctorRange h xs
    let (tmp, v) := swap tmp v
    let h ← dtor h tmp
    pure ⟨h, setAt s.vecs i (some v)⟩
  | .map i xs => do
    let v ← s.vecs i
    let (h, v) ← mapImage s.heap v xs
    pure ⟨h, setAt s.vecs i (some v)⟩
  | .destroy i => do
    let v ← s.vecs i
    let h ← dtor s.heap v
    pure ⟨h, setAt s.vecs i none⟩

/-- a program run, a sequence of calls of the members `mappable_vector.hpp:33-87` -/
def run (s : State α) : List (Cmd α) → Option (State α)
  | [] => some s
  | c :: cs => do
    let s ← step s c
    run s cs

/-- before any `mappable_vector` (`mappable_vector.hpp:27`) exists -/
def init : State α := ⟨[], fun _ => none⟩

end Succinct.Mappable
