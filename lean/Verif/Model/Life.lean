import Verif.Model.TopK
import Verif.Model.Nibble
import Verif.Model.Gamma
import Verif.Model.EliasFano

/-! # Default construction, `swap` and `dispose` of every class

Objects of one class are kept in a memory `Nat → T`, so that `x.swap(x)` is covered.  A data member is
addressed by a `Field`.  A `mappable_vector` member is one field here (its own members are the subject
of `Model/Mappable.lean`). -/
namespace Succinct

/-- a data member of type `F` inside an object of type `T` (e.g. `m_size` in `bit_vector.hpp:525`) -/
structure Field (T F : Type) where
  get : T → F
  set : T → F → T

namespace Field
/-- the object itself (`*this`, e.g. in `bit_vector.hpp:234-237`) -/
def whole {T : Type} : Field T T := ⟨id, fun _ x => x⟩
/-- a member of a member (e.g. a member of `m_ef`, `elias_fano_list.hpp:54,65`) -/
def sub {T F G : Type} (f : Field T F) (g : Field F G) : Field T G :=
  ⟨fun t => g.get (f.get t), fun t x => f.set t (g.set (f.get t) x)⟩
end Field

/-- the objects of one class, by address (the two arguments of `swap`, e.g. `bit_vector.hpp:234`, may be the same object) -/
abbrev Objs (T : Type) := Nat → T

/-- assignment to an object, as done by `std::swap` (e.g. `bit_vector.hpp:235`) -/
def Objs.put {T : Type} (s : Objs T) (i : Nat) (x : T) : Objs T := fun k => if k = i then x else s k

/-- `std::swap(objs[i].f, objs[j].f)`: copy to a temporary and two assignments; also
`mappable_vector::swap` (`mappable_vector.hpp:61-66`) and `std::vector::swap` on a member -/
def stdSwap {T F : Type} (f : Field T F) (s : Objs T) (i j : Nat) : Objs T :=
  let tmp := f.get (s i)
  let s := s.put i (f.set (s i) (f.get (s j)))
  s.put j (f.set (s j) tmp)

/-- `bit_vector_builder::swap` (`bit_vector.hpp:176-181`) -/
def Builder.swap {T : Type} (f : Field T Builder) (s : Objs T) (i j : Nat) : Objs T :=
  let s := stdSwap (f.sub ⟨Builder.bits, fun b x => { b with bits := x }⟩) s i j
  let s := stdSwap (f.sub ⟨Builder.size, fun b x => { b with size := x }⟩) s i j
  stdSwap (f.sub ⟨Builder.cur, fun b x => { b with cur := x }⟩) s i j

/-- `bit_vector::swap` (`bit_vector.hpp:234-237`) -/
def BitVector.swap {T : Type} (f : Field T BitVector) (s : Objs T) (i j : Nat) : Objs T :=
  let s := stdSwap (f.sub ⟨BitVector.size, fun b x => { b with size := x }⟩) s j i
  stdSwap (f.sub ⟨BitVector.bits, fun b x => { b with bits := x }⟩) s j i

/-- `rs_bit_vector::swap` (`rs_bit_vector.hpp:36-41`) -/
def RSBitVector.swap {T : Type} (f : Field T RSBitVector) (s : Objs T) (i j : Nat) : Objs T :=
  let s := BitVector.swap (f.sub ⟨RSBitVector.bv, fun b x => { b with bv := x }⟩) s i j
  let s := stdSwap (f.sub ⟨RSBitVector.pairs, fun b x => { b with pairs := x }⟩) s i j
  let s := stdSwap (f.sub ⟨RSBitVector.hints, fun b x => { b with hints := x }⟩) s i j
  stdSwap (f.sub ⟨RSBitVector.hints0, fun b x => { b with hints0 := x }⟩) s i j

/-- `bp_vector::swap` (`bp_vector.hpp:38-43`) -/
def BpVector.swap {T : Type} (f : Field T BpVector) (s : Objs T) (i j : Nat) : Objs T :=
  let s := RSBitVector.swap (f.sub ⟨BpVector.rs, fun b x => { b with rs := x }⟩) s i j
  let s := stdSwap (f.sub ⟨BpVector.internalNodes, fun b x => { b with internalNodes := x }⟩) s i j
  let s := stdSwap (f.sub ⟨BpVector.blockMin, fun b x => { b with blockMin := x }⟩) s i j
  stdSwap (f.sub ⟨BpVector.superMin, fun b x => { b with superMin := x }⟩) s i j

/-- `darray::swap` (`darray.hpp:67-72`) -/
def Darray.swap {T : Type} (f : Field T Darray) (s : Objs T) (i j : Nat) : Objs T :=
  let g : Field T DInv := f.sub ⟨Darray.inv, fun b x => { b with inv := x }⟩
  let s := stdSwap (f.sub ⟨Darray.positions, fun b x => { b with positions := x }⟩) s j i
  let s := stdSwap (g.sub ⟨DInv.block, fun b x => { b with block := x }⟩) s i j
  let s := stdSwap (g.sub ⟨DInv.subblock, fun b x => { b with subblock := x }⟩) s i j
  stdSwap (g.sub ⟨DInv.overflow, fun b x => { b with overflow := x }⟩) s i j

/-- `darray64::swap` (`darray64.hpp:48-54`) -/
def Darray64.swap {T : Type} (f : Field T Darray64) (s : Objs T) (i j : Nat) : Objs T :=
  let s := stdSwap (f.sub ⟨Darray64.numOnes, fun b x => { b with numOnes := x }⟩) s i j
  let s := BitVector.swap (f.sub ⟨Darray64.bits, fun b x => { b with bits := x }⟩) s i j
  let s := stdSwap (f.sub ⟨Darray64.block, fun b x => { b with block := x }⟩) s i j
  stdSwap (f.sub ⟨Darray64.subblock, fun b x => { b with subblock := x }⟩) s i j

/-- `elias_fano::swap` (`elias_fano.hpp:92-99`) -/
def EliasFano.swap {T : Type} (f : Field T EliasFano) (s : Objs T) (i j : Nat) : Objs T :=
  let s := stdSwap (f.sub ⟨EliasFano.size, fun b x => { b with size := x }⟩) s j i
  let s := BitVector.swap (f.sub ⟨EliasFano.high, fun b x => { b with high := x }⟩) s j i
  let s := Darray.swap (f.sub ⟨EliasFano.d1, fun b x => { b with d1 := x }⟩) s j i
  let s := Darray.swap (f.sub ⟨EliasFano.d0, fun b x => { b with d0 := x }⟩) s j i
  let s := BitVector.swap (f.sub ⟨EliasFano.low, fun b x => { b with low := x }⟩) s j i
  stdSwap (f.sub ⟨EliasFano.l, fun b x => { b with l := x }⟩) s j i

/-- `elias_fano_list::swap` (`elias_fano_list.hpp:52-55`) -/
def EFList.swap {T : Type} (f : Field T EFList) (s : Objs T) (i j : Nat) : Objs T :=
  EliasFano.swap (f.sub ⟨EFList.ef, fun b x => { b with ef := x }⟩) s i j

/-- `elias_fano_compressed_list::swap` (`elias_fano_compressed_list.hpp:55-59`) -/
def EFCompressedList.swap {T : Type} (f : Field T EFCompressedList) (s : Objs T) (i j : Nat) : Objs T :=
  let s := EliasFano.swap (f.sub ⟨EFCompressedList.ef, fun b x => { b with ef := x }⟩) s i j
  BitVector.swap (f.sub ⟨EFCompressedList.bits, fun b x => { b with bits := x }⟩) s i j

/-- `gamma_vector::swap` (`gamma_vector.hpp:53-57`), `gamma_bit_vector::swap` (`gamma_bit_vector.hpp:59-63`) -/
def GammaVec.swap {T : Type} (f : Field T GammaVec) (s : Objs T) (i j : Nat) : Objs T :=
  let s := Darray64.swap (f.sub ⟨GammaVec.high, fun b x => { b with high := x }⟩) s i j
  BitVector.swap (f.sub ⟨GammaVec.low, fun b x => { b with low := x }⟩) s i j

/-- `cartesian_tree::swap` (`cartesian_tree.hpp:156-159`) -/
def CartesianTree.swap {T : Type} (f : Field T CartesianTree) (s : Objs T) (i j : Nat) : Objs T :=
  BpVector.swap (f.sub ⟨CartesianTree.bp, fun b x => { b with bp := x }⟩) s j i

/-- `topk_vector::swap` (`topk_vector.hpp:176-180`); the swap of the value vector exchanges its contents -/
def TopK.swap {α T : Type} (f : Field T (TopK α)) (s : Objs T) (i j : Nat) : Objs T :=
  let s := stdSwap (f.sub ⟨TopK.v, fun b x => { b with v := x }⟩) s j i
  CartesianTree.swap (f.sub ⟨TopK.tree, fun b x => { b with tree := x }⟩) s j i

/-- `topk_vector::enumerator::swap` (`topk_vector.hpp:87-93`) -/
def TopKEnum.swap {α T : Type} (f : Field T (TopKEnum α)) (s : Objs T) (i j : Nat) : Objs T :=
  let s := stdSwap (f.sub ⟨TopKEnum.topkv, fun b x => { b with topkv := x }⟩) s i j
  let s := stdSwap (f.sub ⟨TopKEnum.q, fun b x => { b with q := x }⟩) s i j
  stdSwap (f.sub ⟨TopKEnum.cur, fun b x => { b with cur := x }⟩) s i j

/-- `nibble_vector::swap` (`nibble_vector.hpp:49-52`) -/
def NibbleVector.swap {T : Type} (f : Field T NibbleVector) (s : Objs T) (i j : Nat) : Objs T :=
  let s := stdSwap (f.sub ⟨NibbleVector.size, fun b x => { b with size := x }⟩) s j i
  stdSwap (f.sub ⟨NibbleVector.nibbles, fun b x => { b with nibbles := x }⟩) s j i

/-- `util::dispose(objs[i])` (`util.hpp:241-245`): `T().swap(t)`, the temporary `T()` living at the unused
address `tmp` -/
def dispose {T : Type} (swap : Field T T → Objs T → Nat → Nat → Objs T) (dflt : T) (tmp : Nat) (s : Objs T) (i : Nat) : Objs T :=
  swap .whole (s.put tmp dflt) tmp i

/-! Default constructors.  An empty `mappable_vector` is `[]` (`mappable_vector.hpp:33-37`). -/

/-- `bit_vector.hpp:191-193` -/
def BitVector.dflt : BitVector := ⟨0, []⟩
/-- `rs_bit_vector.hpp:13-15` -/
def RSBitVector.dflt : RSBitVector := ⟨BitVector.dflt, [], [], []⟩
/-- `bp_vector.hpp:15-17`; `m_internal_nodes` is not initialised: any value `u` -/
def BpVector.dflt (u : Nat) : BpVector := ⟨RSBitVector.dflt, u, [], []⟩
/-- `darray.hpp:13-15` -/
def Darray.dflt : Darray := ⟨0, [], [], []⟩
/-- `darray64.hpp:36-38` -/
def Darray64.dflt : Darray64 := ⟨0, BitVector.dflt, [], []⟩
/-- `elias_fano.hpp:10-12`; `m_l` is not initialised: any value `u` -/
def EliasFano.dflt (u : Nat) : EliasFano := ⟨0, BitVector.dflt, Darray.dflt, Darray.dflt, BitVector.dflt, u⟩
/-- `elias_fano_list.hpp:11` -/
def EFList.dflt (u : Nat) : EFList := ⟨EliasFano.dflt u⟩
/-- `elias_fano_compressed_list.hpp:11` -/
def EFCompressedList.dflt (u : Nat) : EFCompressedList := ⟨EliasFano.dflt u, BitVector.dflt⟩
/-- `gamma_vector.hpp:15`, `gamma_bit_vector.hpp:20` -/
def GammaVec.dflt : GammaVec := ⟨Darray64.dflt, BitVector.dflt⟩
/-- `cartesian_tree.hpp:83` -/
def CartesianTree.dflt (u : Nat) : CartesianTree := ⟨BpVector.dflt u⟩
/-- `topk_vector.hpp:22-23` -/
def TopK.dflt {α : Type} (u : Nat) : TopK α := ⟨[], CartesianTree.dflt u⟩

namespace Builder

/-- the loop `bit_vector.hpp:134-138` of `b.append(b)`: the word read, at index `i`, is a word of the vector
written to; `n` iterations remain -/
def appendSelfLoop (shift : Nat) : Nat → Nat → List Word → Nat → Option (List Word × Nat)
  | 0, _, ws, c => some (ws, c)
  | n+1, i, ws, c => do
    let w ← rd ws i
    let v ← shl w shift
    let ws ← orCur ws (some c) v
    let v ← shr w (64 - shift)
    let ws ← wr ws (c + 1) v
    appendSelfLoop shift n (i + 1) ws (c + 1)

/-- `b.append(b)` (`bit_vector.hpp:120-145`): `rhs.m_bits` is `m_bits`, which is resized first -/
def appendSelf (b : Builder) : Option Builder := do
  if b.size = 0 then pure b else
    let pos := b.bits.length
    let shift := b.size % 64
    let size := b.size + b.size
    let grow ← subU (wordsFor size) b.bits.length
    let ws := b.bits ++ List.replicate grow 0
    if shift = 0 then
      -- std::copy of all words, the new ones included, to the position pos
      assertP (pos + ws.length ≤ ws.length)
      let ws := ws.take pos ++ ws
      let c ← back ws
      pure ⟨ws, size, some c⟩
    else
      let c ← subU pos 1
      let n ← subU ws.length 1
      let (ws, c) ← appendSelfLoop shift n 0 ws c
      let last ← ws.getLast?
      let v ← shl last shift
      let ws ← orCur ws (some c) v
      let e ← back ws
      if c < e then
        let last ← ws.getLast?
        let v ← shr last (64 - shift)
        let ws ← wr ws (c + 1) v
        pure ⟨ws, size, some e⟩
      else pure ⟨ws, size, some e⟩

end Builder
end Succinct
